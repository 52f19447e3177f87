import Verif.Pass.Select
import Mathlib.Data.List.Basic

/-!
# Include/exclude lists: C37, C38
-/

namespace Verif.Pass

/-- What a pattern means: `*` stands for any sequence of characters, every other character for
itself. -/
inductive Glob : List Char → List Char → Prop where
  | nil : Glob [] []
  | char {c p s} : c ≠ '*' → Glob p s → Glob (c :: p) (c :: s)
  | star {p s} (t : List Char) : Glob p s → Glob ('*' :: p) (t ++ s)

/-- A character that may appear in a pattern: not a blank, and not a syntax character of regular
expressions other than `.` and `*`. -/
def PlainChar (c : Char) : Prop := isBlank c = false ∧ (isSyntax c = true → c = '.' ∨ c = '*')

/-- A pattern without blanks and without syntax characters other than `.` and `*`. -/
def Plain (p : List Char) : Prop := ∀ c ∈ p, PlainChar c

/-- A text without line breaks. -/
def OneLine (s : List Char) : Prop := ∀ c ∈ s, c ≠ '\n' ∧ c ≠ '\r'

/-! ## From patterns to terms -/

/-- The terms a plain pattern is translated to. -/
def atoms : List Char → List Atom
  | [] => []
  | c :: p => (if c = '*' then Atom.star .any else .one (.lit c)) :: atoms p

theorem escapeRegex_cons (c : Char) (p : List Char) :
    escapeRegex (c :: p) =
      (if c = '.' then ['\\', '.'] else if c = '*' then ['.', '*'] else [c]) ++ escapeRegex p := by
  unfold escapeRegex
  by_cases h : c = '.'
  · subst h; simp [findAndReplaceAll]
  · by_cases h2 : c = '*'
    · subst h2; simp [findAndReplaceAll]
    · simp [findAndReplaceAll, h, h2]

theorem parseFrom_lit (acc : List Atom) (c : Char) (t : List Char) (h : isSyntax c = false) :
    parseFrom acc (c :: t) = parseFrom (.one (.lit c) :: acc) t := by
  have hc : c ≠ '|' ∧ c ≠ '.' ∧ c ≠ '$' ∧ c ≠ '*' ∧ c ≠ '\\' := by
    refine ⟨?_, ?_, ?_, ?_, ?_⟩ <;> (rintro rfl; revert h; decide)
  obtain ⟨h1, h2, h3, h4, h5⟩ := hc
  rw [parseFrom.eq_def]
  split <;> simp_all

theorem parseFrom_escape (p : List Char) (hp : Plain p) (acc : List Atom) (rest : List Char) :
    parseFrom acc (escapeRegex p ++ rest) = parseFrom ((atoms p).reverse ++ acc) rest := by
  induction p generalizing acc with
  | nil => rfl
  | cons c p ih =>
    have hp' : Plain p := fun d hd => hp d (List.mem_cons_of_mem _ hd)
    have hc := hp c (List.mem_cons_self ..)
    rw [escapeRegex_cons, List.append_assoc]
    by_cases h1 : c = '.'
    · subst h1
      have : parseFrom acc ('\\' :: '.' :: (escapeRegex p ++ rest))
          = parseFrom (.one (.lit '.') :: acc) (escapeRegex p ++ rest) := by
        rw [parseFrom]; simp [isSyntax]
      simp only [if_true, List.cons_append, List.nil_append]
      rw [this, ih hp']
      simp [atoms]
    · by_cases h2 : c = '*'
      · subst h2
        have : parseFrom acc ('.' :: '*' :: (escapeRegex p ++ rest))
            = parseFrom (.star .any :: acc) (escapeRegex p ++ rest) := by
          rw [parseFrom, parseFrom]
        simp only [if_neg h1, if_true, List.cons_append, List.nil_append]
        rw [this, ih hp']
        simp [atoms]
      · have hs : isSyntax c = false := by
          cases h : isSyntax c with
          | false => rfl
          | true => rcases hc.2 h with h | h <;> contradiction
        simp only [if_neg h1, if_neg h2, List.cons_append, List.nil_append]
        rw [parseFrom_lit _ _ _ hs, ih hp']
        simp [atoms, h2]

theorem parseRegex_escape (p : List Char) (hp : Plain p) :
    parseRegex (escapeRegex p) = .ok [atoms p] := by
  have := parseFrom_escape p hp [] []
  simp only [List.append_nil] at this
  simp [parseRegex, this, parseFrom]

theorem matchSeq_atoms (p s : List Char) (hs : OneLine s) :
    matchSeq (atoms p) s = true ↔ Glob p s := by
  induction p generalizing s with
  | nil =>
    simp only [atoms, matchSeq, List.isEmpty_iff]
    exact ⟨fun h => h ▸ .nil, fun h => by cases h; rfl⟩
  | cons c p ih =>
    by_cases hc : c = '*'
    · subst hc
      simp only [atoms, if_true]
      induction s with
      | nil =>
        rw [matchSeq, matchStar, ih [] hs]
        constructor
        · intro h; exact .star [] h
        · intro h
          generalize hq : ([] : List Char) = q at h
          cases h with
          | char h _ => exact absurd rfl h
          | star t h => 
            obtain ⟨h1, h2⟩ := List.append_eq_nil_iff.1 hq.symm
            subst h1; subst h2; exact h
      | cons d s ihs =>
        have hs' : OneLine s := fun x hx => hs x (List.mem_cons_of_mem _ hx)
        have hd := hs d (List.mem_cons_self ..)
        rw [matchSeq] at ihs ⊢
        rw [matchStar, Bool.or_eq_true, Bool.and_eq_true, ih _ hs, ihs hs']
        have hok : Single.ok .any d = true := by simp [Single.ok, hd.1, hd.2]
        simp only [hok, true_and]
        constructor
        · rintro (h | h)
          · exact .star [] h
          · generalize hq : '*' :: p = q at h
            cases h with
            | nil => cases hq
            | char h _ => cases hq; exact absurd rfl h
            | star t h => cases hq; exact .star (d :: t) h
        · intro h
          generalize hq : d :: s = q at h
          cases h with
          | char h _ => exact absurd rfl h
          | star t h =>
            cases t with
            | nil => simp at hq; subst hq; exact .inl h
            | cons e t =>
              simp at hq
              obtain ⟨rfl, rfl⟩ := hq
              exact .inr (.star t h)
    · simp only [atoms, if_neg hc]
      cases s with
      | nil =>
        simp only [matchSeq, Bool.false_eq_true, false_iff]
        intro h
        generalize hq : ([] : List Char) = q at h
        cases h with
        | char => cases hq
        | star => exact hc rfl
      | cons d s =>
        have hs' : OneLine s := fun x hx => hs x (List.mem_cons_of_mem _ hx)
        rw [matchSeq, Bool.and_eq_true, ih s hs']
        simp only [Single.ok, beq_iff_eq]
        constructor
        · rintro ⟨rfl, h⟩; exact .char hc h
        · intro h
          generalize hq : d :: s = q at h
          cases h with
          | char _ h => cases hq; exact ⟨rfl, h⟩
          | star => exact absurd rfl hc

/-- **C38** A pattern of an include or exclude file, once translated, matches exactly the names
obtained by replacing each `*` by any characters. -/
theorem C38_wildcards (p s : List Char) (hp : Plain p) (hs : OneLine s) :
    ∃ re, parseRegex (escapeRegex p) = .ok re ∧ (regexMatch re s = true ↔ Glob p s) := by
  refine ⟨_, parseRegex_escape p hp, ?_⟩
  simp [regexMatch, matchSeq_atoms p s hs]

/-! ## Files -/

/-- The lines an include or exclude file is made of. -/
inductive Line where
  /-- Nothing but blanks. -/
  | blank (ws : List Char)
  /-- `#` and anything. -/
  | comment (t : List Char)
  /-- A module pattern and a function pattern, separated by a space and further blanks, perhaps
  followed by blanks. -/
  | entry (m pre f post : List Char)

/-- The text of a line. -/
def Line.text : Line → List Char
  | .blank ws => ws
  | .comment t => '#' :: t
  | .entry m pre f post => m ++ ' ' :: (pre ++ f ++ post)

/-- Blanks other than the newline. -/
def Blanks (ws : List Char) : Prop := ∀ c ∈ ws, isBlank c = true ∧ c ≠ '\n'

/-- Well-formed lines. -/
def Line.Ok : Line → Prop
  | .blank ws => Blanks ws
  | .comment t => '\n' ∉ t
  | .entry m pre f post =>
    m ≠ [] ∧ m.head? ≠ some '#' ∧ Plain m ∧ f ≠ [] ∧ Plain f ∧ Blanks pre ∧ Blanks post

/-- The file holds these lines; the last one may lack its newline. -/
def Denotes : File → Option (List Line) → Prop
  | .absent, none => True
  | .text t, some ls => (∀ l ∈ ls, l.Ok) ∧
      (t = ls.flatMap (fun l => l.text ++ ['\n']) ∨
        t ++ ['\n'] = ls.flatMap (fun l => l.text ++ ['\n']))
  | _, _ => False

/-- What a module pattern means: a relative path may be found in any directory, and any
extension is accepted if the pattern has none. -/
def ModMatches (m M : List Char) : Prop :=
  ∃ pre body post, M = pre ++ body ++ post ∧ Glob m body ∧
    (if m.head? = some '/' then pre = [] else ∃ dir, pre = dir ++ ['/']) ∧
    (if hasExtension m then post = [] else ∃ ext, post = '.' :: ext)

/-- The function `name` of module `M` is listed by the lines. -/
def Listed (M name : List Char) : Option (List Line) → Prop
  | none => False
  | some ls => ∃ m pre f post, Line.entry m pre f post ∈ ls ∧ ModMatches m M ∧ Glob f name

theorem trim_self (f : List Char) (h : ∀ c ∈ f, isBlank c = false) : trim f = f := by
  have key : ∀ g : List Char, (∀ c ∈ g, isBlank c = false) → g.dropWhile isBlank = g := by
    intro g hg
    cases g with
    | nil => rfl
    | cons a g => rw [List.dropWhile_cons_of_neg (by simp [hg a (List.mem_cons_self ..)])]
  unfold trim
  rw [key f h, key _ (by simpa using h), List.reverse_reverse]

theorem dropWhile_blanks (ws g : List Char) (h : ∀ c ∈ ws, isBlank c = true) :
    (ws ++ g).dropWhile isBlank = g.dropWhile isBlank := by
  induction ws with
  | nil => rfl
  | cons a ws ih =>
    rw [List.cons_append, List.dropWhile_cons_of_pos (h a (List.mem_cons_self ..)),
      ih (fun c hc => h c (List.mem_cons_of_mem _ hc))]

theorem trim_pad (pre f post : List Char) (h1 : ∀ c ∈ pre, isBlank c = true)
    (hf : ∀ c ∈ f, isBlank c = false) (hne : f ≠ []) (h2 : ∀ c ∈ post, isBlank c = true) :
    trim (pre ++ f ++ post) = f := by
  have key : ∀ g x : List Char, g ≠ [] → (∀ c ∈ g, isBlank c = false) →
      (g ++ x).dropWhile isBlank = g ++ x := by
    intro g x hg hb
    cases g with
    | nil => exact absurd rfl hg
    | cons a g => rw [List.cons_append, List.dropWhile_cons_of_neg (by simp [hb a (List.mem_cons_self ..)])]
  unfold trim
  rw [List.append_assoc, dropWhile_blanks _ _ h1, key f post hne hf, List.reverse_append,
    dropWhile_blanks _ _ (by simpa using h2), ]
  have := key f.reverse [] (by simpa using hne) (by simpa using hf)
  rw [List.append_nil] at this
  rw [this, List.reverse_reverse]

theorem trim_blanks (ws : List Char) (h : ∀ c ∈ ws, isBlank c = true) : trim ws = [] := by
  unfold trim
  have := dropWhile_blanks ws [] h
  rw [List.append_nil] at this
  rw [this]; rfl

theorem trim_ne_nil (s : List Char) (c : Char) (hc : c ∈ s) (hb : isBlank c = false) :
    trim s ≠ [] := by
  unfold trim
  have aux : ∀ g : List Char, c ∈ g → c ∈ g.dropWhile isBlank := by
    intro g
    induction g with
    | nil => simp
    | cons a g ih =>
      intro hg
      by_cases ha : isBlank a = true
      · rw [List.dropWhile_cons_of_pos ha]
        rcases List.mem_cons.1 hg with rfl | hg
        · rw [hb] at ha; cases ha
        · exact ih hg
      · rw [List.dropWhile_cons_of_neg ha]; exact hg
  have h1 : c ∈ ((s.dropWhile isBlank).reverse.dropWhile isBlank).reverse := by
    rw [List.mem_reverse]
    exact aux _ (List.mem_reverse.2 (aux _ hc))
  intro h
  rw [h] at h1
  cases h1

theorem splitSpace_entry (m r : List Char) (h : ' ' ∉ m) : splitSpace (m ++ ' ' :: r) = (m, r) := by
  induction m with
  | nil => rfl
  | cons a m ih =>
    have ha : a ≠ ' ' := fun e => h (e ▸ List.mem_cons_self ..)
    have hm := ih (fun h' => h (List.mem_cons_of_mem _ h'))
    rw [List.cons_append, splitSpace.eq_def]
    split
    · simp_all
    · simp_all
    · next c t hx => simp only [List.cons.injEq] at hx; obtain ⟨rfl, rfl⟩ := hx; rw [hm]

/-! ## Module patterns -/

theorem plain_append {p q : List Char} (hp : Plain p) (hq : Plain q) : Plain (p ++ q) := by
  intro c hc
  rcases List.mem_append.1 hc with h | h
  · exact hp c h
  · exact hq c h

theorem plain_modPattern (m : List Char) (h : Plain m) : Plain (modPattern m) := by
  have h1 : Plain ['*', '/'] := by
    intro c hc
    simp only [List.mem_cons, List.not_mem_nil, or_false] at hc
    rcases hc with rfl | rfl <;> exact ⟨by decide, by decide⟩
  have h2 : Plain ['.', '*'] := by
    intro c hc
    simp only [List.mem_cons, List.not_mem_nil, or_false] at hc
    rcases hc with rfl | rfl <;> exact ⟨by decide, by decide⟩
  unfold modPattern
  simp only []
  split
  · split
    · exact plain_append h1 h
    · exact plain_append (plain_append h1 h) h2
  · split
    · exact h
    · exact plain_append h h2

theorem fileName_slash (m : List Char) : fileName (['*', '/'] ++ m) = fileName m := by
  unfold fileName
  rw [List.reverse_append]
  congr 1
  induction m.reverse with
  | nil => rfl
  | cons a l ih =>
    rw [List.cons_append]
    by_cases ha : a = '/'
    · subst ha; rfl
    · rw [List.takeWhile_cons_of_pos (by simpa using ha), List.takeWhile_cons_of_pos (by simpa using ha), ih]

theorem glob_append (p q s : List Char) :
    Glob (p ++ q) s ↔ ∃ a b, s = a ++ b ∧ Glob p a ∧ Glob q b := by
  induction p generalizing s with
  | nil =>
    constructor
    · intro h; exact ⟨[], s, rfl, .nil, h⟩
    · rintro ⟨a, b, rfl, ha, hb⟩; cases ha; exact hb
  | cons c p ih =>
    rw [List.cons_append]
    constructor
    · intro h
      cases h with
      | char hc h =>
        obtain ⟨a, b, rfl, ha, hb⟩ := (ih _).1 h
        exact ⟨c :: a, b, rfl, .char hc ha, hb⟩
      | star t h =>
        obtain ⟨a, b, rfl, ha, hb⟩ := (ih _).1 h
        exact ⟨t ++ a, b, by rw [List.append_assoc], .star t ha, hb⟩
    · rintro ⟨a, b, rfl, ha, hb⟩
      cases ha with
      | char hc ha => exact .char hc ((ih _).2 ⟨_, _, rfl, ha, hb⟩)
      | star t ha => rw [List.append_assoc]; exact .star t ((ih _).2 ⟨_, _, rfl, ha, hb⟩)

theorem glob_star_slash (s : List Char) : Glob ['*', '/'] s ↔ ∃ dir, s = dir ++ ['/'] := by
  constructor
  · intro h
    cases h with
    | char h => exact absurd rfl h
    | star t h =>
      cases h with
      | char _ h => cases h; exact ⟨t, rfl⟩
  · rintro ⟨dir, rfl⟩; exact .star dir (.char (by decide) .nil)

theorem glob_dot_star (s : List Char) : Glob ['.', '*'] s ↔ ∃ ext, s = '.' :: ext := by
  constructor
  · intro h
    cases h with
    | char _ h =>
      cases h with
      | char h => exact absurd rfl h
      | star t h => cases h; exact ⟨t, by simp⟩
  · rintro ⟨ext, rfl⟩
    have := Glob.star ext Glob.nil
    rw [List.append_nil] at this
    exact .char (by decide) this

theorem glob_modPattern (m M : List Char) : Glob (modPattern m) M ↔ ModMatches m M := by
  unfold modPattern ModMatches isRelative
  simp only []
  by_cases hr : m.head? = some '/'
  · have : (m.head? != some '/') = false := by simp [hr]
    simp only [this, Bool.false_eq_true, if_false, if_pos hr]
    by_cases he : hasExtension m = true
    · simp only [if_pos he]
      constructor
      · intro h; exact ⟨[], M, [], by simp, h, rfl, rfl⟩
      · rintro ⟨pre, body, post, rfl, h, rfl, rfl⟩; simpa using h
    · simp only [if_neg he]
      rw [glob_append]
      constructor
      · rintro ⟨a, b, rfl, ha, hb⟩
        exact ⟨[], a, b, by simp, ha, rfl, (glob_dot_star b).1 hb⟩
      · rintro ⟨pre, body, post, rfl, h, rfl, hp⟩
        exact ⟨body, post, by simp, h, (glob_dot_star _).2 hp⟩
  · have : (m.head? != some '/') = true := by simp [hr]
    simp only [this, if_true, if_neg hr]
    have hext : hasExtension (['*', '/'] ++ m) = hasExtension m := by
      unfold hasExtension; rw [fileName_slash]
    rw [hext]
    by_cases he : hasExtension m = true
    · simp only [if_pos he]
      rw [glob_append]
      constructor
      · rintro ⟨a, b, rfl, ha, hb⟩
        exact ⟨a, b, [], by simp, hb, (glob_star_slash a).1 ha, rfl⟩
      · rintro ⟨pre, body, post, rfl, h, hp, rfl⟩
        exact ⟨pre, body, by simp, (glob_star_slash _).2 hp, h⟩
    · simp only [if_neg he]
      rw [glob_append]
      constructor
      · rintro ⟨a, b, rfl, ha, hb⟩
        obtain ⟨a1, a2, rfl, ha1, ha2⟩ := (glob_append _ _ _).1 ha
        exact ⟨a1, a2, b, rfl, ha2, (glob_star_slash _).1 ha1, (glob_dot_star b).1 hb⟩
      · rintro ⟨pre, body, post, rfl, h, hp, hq⟩
        exact ⟨pre ++ body, post, rfl,
          (glob_append _ _ _).2 ⟨pre, body, rfl, (glob_star_slash _).2 hp, h⟩,
          (glob_dot_star _).2 hq⟩

/-! ## Parsing a file -/

/-- The function patterns a line contributes. -/
def hit (M : List Char) : Line → List (List Char)
  | .entry m _ f _ => if regexMatch [atoms (modPattern m)] M then [f] else []
  | _ => []

theorem lineRegex_text (M : List Char) (l : Line) (h : l.Ok) :
    lineRegex M l.text = .ok ((hit M l).flatMap fun f => escapeRegex f ++ ['|']) := by
  cases l with
  | blank ws =>
    have : trim ws = [] := trim_blanks ws (fun c hc => (h c hc).1)
    simp [lineRegex, Line.text, this, hit]
  | comment t => simp [lineRegex, Line.text, hit]
  | entry m pre f post =>
    obtain ⟨hm, hh, hpm, hf, hpf, hpre, hpost⟩ := h
    have hsp : ' ' ∉ m := fun hx => by have := (hpm _ hx).1; revert this; decide
    obtain ⟨c, m', rfl⟩ := List.exists_cons_of_ne_nil hm
    have htr : trim (c :: m' ++ ' ' :: (pre ++ f ++ post)) ≠ [] :=
      trim_ne_nil _ c (by simp) (hpm c (List.mem_cons_self ..)).1
    have hhead : (c :: m' ++ ' ' :: (pre ++ f ++ post)).head? ≠ some '#' := by simpa using hh
    have hnil : pre ++ f ++ post ≠ [] := by simp [hf]
    unfold lineRegex
    rw [Line.text, if_neg (by rintro (h | h); exact hhead h; exact htr h)]
    rw [splitSpace_entry _ _ hsp]
    simp only [if_neg hnil]
    rw [trim_self _ (fun d hd => (hpm d hd).1),
      trim_pad pre f post (fun d hd => (hpre d hd).1) (fun d hd => (hpf d hd).1) hf
        (fun d hd => (hpost d hd).1),
      parseRegex_escape _ (plain_modPattern _ hpm)]
    simp only [hit]
    show (if regexMatch [atoms (modPattern (c :: m'))] M = true then _ else _) = _
    split <;> simp

theorem linesRegex_text (M : List Char) (ls : List Line) (h : ∀ l ∈ ls, l.Ok) :
    linesRegex M (ls.map Line.text)
      = .ok ((ls.flatMap (hit M)).flatMap fun f => escapeRegex f ++ ['|']) := by
  induction ls with
  | nil => rfl
  | cons l ls ih =>
    rw [List.map_cons, linesRegex, lineRegex_text M l (h l (List.mem_cons_self ..)),
      ih (fun x hx => h x (List.mem_cons_of_mem _ hx)), List.flatMap_cons, List.flatMap_append]
    rfl

theorem parseFrom_alts (fs : List (List Char)) (hne : fs ≠ []) (h : ∀ f ∈ fs, Plain f) :
    parseFrom [] ((fs.flatMap fun f => escapeRegex f ++ ['|']).dropLast) = some (fs.map atoms) := by
  induction fs with
  | nil => exact absurd rfl hne
  | cons f fs ih =>
    have hf := h f (List.mem_cons_self ..)
    by_cases hfs : fs = []
    · subst hfs
      simp only [List.flatMap_cons, List.flatMap_nil, List.append_nil, List.dropLast_concat]
      have := parseFrom_escape f hf [] []
      simp only [List.append_nil] at this
      rw [this, parseFrom]; simp
    · have hn : (fs.flatMap fun f => escapeRegex f ++ ['|']) ≠ [] := by
        obtain ⟨g, gs, rfl⟩ := List.exists_cons_of_ne_nil hfs
        simp
      rw [List.flatMap_cons, List.dropLast_append_of_ne_nil hn, List.append_assoc,
        parseFrom_escape f hf, List.singleton_append, List.append_nil, parseFrom,
        ih hfs (fun g hg => h g (List.mem_cons_of_mem _ hg))]
      simp

theorem parseRegex_alts (fs : List (List Char)) (h : ∀ f ∈ fs, Plain f) :
    ∃ re, parseRegex ((fs.flatMap fun f => escapeRegex f ++ ['|']).dropLast) = .ok re ∧
      ∀ name, name ≠ [] → OneLine name → (regexMatch re name = true ↔ ∃ f ∈ fs, Glob f name) := by
  by_cases hne : fs = []
  · subst hne
    refine ⟨[[]], rfl, ?_⟩
    intro name hn _
    simp [regexMatch, matchSeq, hn]
  · refine ⟨fs.map atoms, ?_, ?_⟩
    · rw [parseRegex, parseFrom_alts fs hne h]
    · intro name _ hl
      simp only [regexMatch, List.any_map, List.any_eq_true, Function.comp]
      constructor
      · rintro ⟨f, hf, hm⟩; exact ⟨f, hf, (matchSeq_atoms f name hl).1 hm⟩
      · rintro ⟨f, hf, hm⟩; exact ⟨f, hf, (matchSeq_atoms f name hl).2 hm⟩

theorem text_no_newline (l : Line) (h : l.Ok) : '\n' ∉ l.text := by
  cases l with
  | blank ws => exact fun hx => (h _ hx).2 rfl
  | comment t =>
    simp only [Line.text, List.mem_cons, not_or]
    exact ⟨by decide, h⟩
  | entry m pre f post =>
    obtain ⟨-, -, hpm, -, hpf, hpre, hpost⟩ := h
    simp only [Line.text, List.mem_append, List.mem_cons, not_or]
    refine ⟨fun hx => ?_, by decide, ⟨fun hx => (hpre _ hx).2 rfl, fun hx => ?_⟩, fun hx => (hpost _ hx).2 rfl⟩
    · have := (hpm _ hx).1; revert this; decide
    · have := (hpf _ hx).1; revert this; decide

theorem splitOn_first (x : Char) (l r : List Char) (h : x ∉ l) :
    (l ++ x :: r).splitOn x = l :: r.splitOn x := by
  unfold List.splitOn
  exact List.splitOnP_append_cons_of_forall_mem
    (fun y hy => by simp only [beq_eq_false_iff_ne]; rintro rfl; exact h hy) _ (by simp) _

theorem splitOn_lines (ls : List (List Char)) (h : ∀ l ∈ ls, '\n' ∉ l) :
    (ls.flatMap fun l => l ++ ['\n']).splitOn '\n' = ls ++ [[]] := by
  induction ls with
  | nil => rfl
  | cons l ls ih =>
    rw [List.flatMap_cons, List.append_assoc, List.singleton_append,
      splitOn_first _ _ _ (h l (by simp)), ih (fun m hm => h m (by simp [hm]))]
    rfl

theorem splitOn_snoc (t : List Char) : (t ++ ['\n']).splitOn '\n' = t.splitOn '\n' ++ [[]] := by
  unfold List.splitOn
  rw [List.splitOnP_append_cons _ _ (by simp)]
  rfl

theorem linesRegex_append (M : List Char) (a : List (List Char)) :
    linesRegex M (a ++ [[]]) = linesRegex M a := by
  induction a with
  | nil => rfl
  | cons l a ih => rw [List.cons_append, linesRegex, linesRegex, ih]

theorem linesRegex_getLines (M t : List Char) :
    linesRegex M (getLines t) = linesRegex M (t.splitOn '\n') := by
  unfold getLines
  simp only []
  split
  · next h =>
    obtain ⟨a, ha⟩ := List.getLast?_eq_some_iff.1 h
    rw [ha, List.dropLast_concat, linesRegex_append]
  · rfl

theorem parseFile (M : List Char) (file : File) (ls : Option (List Line)) (hd : Denotes file ls)
    (hM : OneLine M) :
    ∃ re, parseFunctionSetFile M file = .ok re ∧
      ∀ name, name ≠ [] → OneLine name → (regexMatch re name = true ↔ Listed M name ls) := by
  cases file with
  | absent =>
    cases ls with
    | some => exact absurd hd id
    | none =>
      refine ⟨[[]], rfl, fun name hn _ => ?_⟩
      simp [regexMatch, matchSeq, hn, Listed]
  | unreadable => cases ls <;> exact absurd hd id
  | text t =>
    cases ls with
    | none => exact absurd hd id
    | some ls =>
      obtain ⟨hok, ht⟩ := hd
      have hlr : linesRegex M (getLines t) = linesRegex M (ls.map Line.text) := by
        rw [linesRegex_getLines]
        have hb : (ls.flatMap (fun l => l.text ++ ['\n'])).splitOn '\n' = ls.map Line.text ++ [[]] := by
          have := splitOn_lines (ls.map Line.text) (by
            intro x hx
            obtain ⟨l, hl, rfl⟩ := List.mem_map.1 hx
            exact text_no_newline l (hok l hl))
          rw [List.flatMap_map] at this
          exact this
        rcases ht with ht | ht
        · rw [ht, hb, linesRegex_append]
        · rw [← ht, splitOn_snoc] at hb
          rw [List.append_cancel_right hb]
      have hpl : ∀ f ∈ ls.flatMap (hit M), Plain f := by
        intro f hf
        obtain ⟨l, hl, hfl⟩ := List.mem_flatMap.1 hf
        cases l with
        | blank => cases hfl
        | comment => cases hfl
        | entry m pre g post =>
          simp only [hit] at hfl
          split at hfl
          · rw [List.mem_singleton] at hfl; subst hfl; exact (hok _ hl).2.2.2.2.1
          · cases hfl
      obtain ⟨re, h1, h2⟩ := parseRegex_alts _ hpl
      refine ⟨re, ?_, ?_⟩
      · unfold parseFunctionSetFile
        simp only []
        rw [hlr, linesRegex_text M ls hok]
        exact h1
      · intro name hn hl
        rw [h2 name hn hl]
        constructor
        · rintro ⟨f, hf, hg⟩
          obtain ⟨l, hl, hfl⟩ := List.mem_flatMap.1 hf
          cases l with
          | blank => cases hfl
          | comment => cases hfl
          | entry m pre g post =>
            simp only [hit] at hfl
            split at hfl
            · next hm =>
              rw [List.mem_singleton] at hfl; subst hfl
              refine ⟨m, pre, f, post, hl, ?_, hg⟩
              rw [← glob_modPattern, ← matchSeq_atoms _ _ hM]
              simpa [regexMatch] using hm
            · cases hfl
        · rintro ⟨m, pre, f, post, hl, hm, hg⟩
          refine ⟨f, List.mem_flatMap.2 ⟨_, hl, ?_⟩, hg⟩
          rw [← glob_modPattern, ← matchSeq_atoms _ _ hM] at hm
          simp [hit, regexMatch, hm]

/-! ## Selection -/

/-- **C37** The functions selected are those the include file lists, and those the exclude file
does not list, unless an include file is given without an exclude file; whatever the files say,
the order of the module is kept. -/
theorem C37_select (M : List Char) (inc exc : File) (il el : Option (List Line))
    (names : List (List Char)) (hi : Denotes inc il) (he : Denotes exc el) (hM : OneLine M)
    (hn : ∀ n ∈ names, n ≠ [] ∧ OneLine n) :
    ∃ out, select M inc exc [] names = .ok out ∧ out.Sublist names ∧
      ∀ n, n ∈ out ↔ n ∈ names ∧
        (Listed M n il ∨ (¬ Listed M n el ∧ (il = none ∨ el ≠ none))) := by
  obtain ⟨ri, h1, h2⟩ := parseFile M inc il hi hM
  obtain ⟨re, h3, h4⟩ := parseFile M exc el he hM
  refine ⟨names.filter fun name =>
      if regexMatch ri name then true
      else if regexMatch re name then false
      else !(!exc.given && inc.given), ?_, ?_, ?_⟩
  · unfold select
    rw [h1, h3]
    rfl
  · exact List.filter_sublist
  · intro n
    rw [List.mem_filter]
    refine and_congr_right fun hmem => ?_
    obtain ⟨hn1, hn2⟩ := hn n hmem
    rw [← h2 n hn1 hn2, ← h4 n hn1 hn2]
    have hig : inc.given = true ↔ il ≠ none := by
      cases inc <;> cases il <;> simp_all [Denotes, File.given]
    have heg : exc.given = true ↔ el ≠ none := by
      cases exc <;> cases el <;> simp_all [Denotes, File.given]
    cases hri : regexMatch ri n <;> cases hre : regexMatch re n <;> simp
    rw [heg]
    cases hg : inc.given
    · rw [hg] at hig; simp at hig; simp [hig]
    · rw [hg] at hig; simp at hig; simp [hig]

/-- A file whose last line has no newline, with a comment, a blank line and padding. -/
example : select "/home/u/src/main.c".toList
    (.text "# list\n \t\nmain  g* \nutil f1".toList) .absent []
    ["f1".toList, "g1".toList, "g".toList, "main".toList] = .ok ["g1".toList, "g".toList] := by
  decide +kernel

/-- Both files: what neither lists is instrumented, and inclusion wins. -/
example : select "/home/u/src/a.c".toList
    (.text "a f2\n".toList) (.text "* f*\n".toList) []
    ["f1".toList, "f2".toList, "g".toList] = .ok ["f2".toList, "g".toList] := by
  decide +kernel

/-- **C37** With `--function` and a plain name without `.` and `*`, exactly the functions of that
name are instrumented. -/
theorem C37_function_partial (M f : List Char) (names : List (List Char)) (hf : f ≠ [])
    (hs : ∀ c ∈ f, isSyntax c = false) (hn : ∀ n ∈ names, OneLine n) :
    select M .absent .absent f names = .ok (names.filter (· == f)) := by
  have key : ∀ (g : List Char) (acc : List Atom), (∀ c ∈ g, isSyntax c = false) →
      parseFrom acc g = some [acc.reverse ++ g.map fun c => Atom.one (.lit c)] := by
    intro g
    induction g with
    | nil => intro acc _; simp [parseFrom]
    | cons c g ih =>
      intro acc h
      rw [parseFrom_lit _ _ _ (h c (List.mem_cons_self ..)),
        ih _ (fun d hd => h d (List.mem_cons_of_mem _ hd))]
      simp
  have hm : ∀ g n : List Char, matchSeq (g.map fun c => Atom.one (.lit c)) n = (n == g) := by
    intro g
    induction g with
    | nil => intro n; cases n <;> simp [matchSeq]
    | cons c g ih =>
      intro n
      cases n with
      | nil => simp [matchSeq]
      | cons d n => simp [matchSeq, ih, Single.ok]
  have hall : ∀ n : List Char, OneLine n → matchSeq [.star .any] n = true := by
    intro n
    induction n with
    | nil => intro _; simp [matchSeq, matchStar]
    | cons d n ih =>
      intro h
      rw [matchSeq] at ih ⊢
      have hd := h d (List.mem_cons_self ..)
      simp [matchStar, ih (fun x hx => h x (List.mem_cons_of_mem _ hx)), Single.ok, hd.1, hd.2]
  have h1 : parseRegex f = .ok [f.map fun c => Atom.one (.lit c)] := by
    rw [parseRegex, key f [] hs]; rfl
  have h2 : parseRegex ['.', '*'] = .ok [[.star .any]] := rfl
  unfold select
  simp only [if_pos hf, h1, h2, parseFunctionSetFile]
  show Except.ok _ = Except.ok _
  congr 1
  apply List.filter_congr
  intro n hmem
  simp only [regexMatch, List.any_cons, List.any_nil, Bool.or_false, hm, hall n (hn n hmem)]
  cases n == f <;> rfl

/-- **C37** is false of `--function` for names with a dot: the name is used as a regular
expression. -/
theorem C37_function_wrong :
    select "/a.c".toList .absent .absent "f.1".toList ["f.1".toList, "fx1".toList]
      = .ok ["f.1".toList, "fx1".toList] := by decide +kernel

/-! ## What patterns do not mean -/

theorem matchSeq_eol (a : List Atom) (x : Single) (r : List Atom) (s : List Char) :
    matchSeq (a ++ .eol :: .one x :: r) s = false := by
  induction a generalizing s with
  | nil => cases s <;> simp [matchSeq]
  | cons t a ih =>
    rw [List.cons_append]
    cases t with
    | one y => cases s <;> simp [matchSeq, ih]
    | eol => simp [matchSeq, ih]
    | star y =>
      rw [matchSeq]
      induction s with
      | nil => rw [matchStar, ih]
      | cons c s ihs => rw [matchStar, ih, ihs]; simp

/-- **C38** is false of `$`, which Clang puts in the names of closures: an entry with that name
never lists it. -/
theorem C38_dollar_wrong (f M : List Char) (hf : Plain f) :
    select M (.text ("* ".toList ++ f ++ "$_0\n".toList)) .absent [] [f ++ "$_0".toList]
      = .ok [] := by
  have hb : ∀ c ∈ f ++ "$_0".toList, isBlank c = false := by
    intro c hc
    rcases List.mem_append.1 hc with h | h
    · exact (hf c h).1
    · have : ∀ d ∈ "$_0".toList, isBlank d = false := by decide +kernel
      exact this c h
  have hnl : '\n' ∉ "* ".toList ++ (f ++ "$_0".toList) := by
    intro hx
    rcases List.mem_append.1 hx with h | h
    · revert h; decide +kernel
    · have := hb _ h; revert this; decide
  have hlines : linesRegex M (getLines ("* ".toList ++ f ++ "$_0\n".toList))
      = linesRegex M ["* ".toList ++ (f ++ "$_0".toList)] := by
    rw [linesRegex_getLines]
    have : "* ".toList ++ f ++ "$_0\n".toList
        = ("* ".toList ++ (f ++ "$_0".toList)) ++ '\n' :: [] := by simp
    rw [this, splitOn_first _ _ _ hnl, List.splitOn_nil]
    exact linesRegex_append M [_]
  have hesc : escapeRegex (f ++ "$_0".toList) = escapeRegex f ++ "$_0".toList := by
    clear hlines hnl hb
    induction f with
    | nil => rfl
    | cons c f ih =>
      rw [List.cons_append, escapeRegex_cons, escapeRegex_cons,
        ih (fun d hd => hf d (List.mem_cons_of_mem _ hd)), List.append_assoc]
  have hstar : Plain "*".toList := by
    intro c hc
    have : c = '*' := by simpa using hc
    subst this; exact ⟨by decide, by decide⟩
  have hline : ∃ b : Bool, lineRegex M ("* ".toList ++ (f ++ "$_0".toList))
      = .ok (if b then escapeRegex f ++ "$_0".toList ++ ['|'] else []) := by
    refine ⟨regexMatch [atoms (modPattern "*".toList)] M, ?_⟩
    have e1 : "* ".toList ++ (f ++ "$_0".toList) = "*".toList ++ ' ' :: (f ++ "$_0".toList) := by simp
    have htr : trim ("*".toList ++ ' ' :: (f ++ "$_0".toList)) ≠ [] :=
      trim_ne_nil _ '*' (by simp) (by decide)
    unfold lineRegex
    rw [e1, if_neg (by rintro (h | h); · simp at h
                       · exact htr h)]
    rw [splitSpace_entry _ _ (by decide +kernel)]
    have hne : f ++ "$_0".toList ≠ [] := by simp
    simp only [if_neg hne]
    rw [trim_self _ hb, trim_self "*".toList (by decide +kernel), hesc,
      parseRegex_escape _ (plain_modPattern _ hstar)]
    show (if regexMatch [atoms (modPattern "*".toList)] M = true then _ else _) = _
    split <;> rfl
  obtain ⟨b, hline⟩ := hline
  have hfile : ∃ re, parseFunctionSetFile M (.text ("* ".toList ++ f ++ "$_0\n".toList)) = .ok re ∧
      regexMatch re (f ++ "$_0".toList) = false := by
    unfold parseFunctionSetFile
    simp only []
    rw [hlines, linesRegex, hline]
    cases b with
    | false =>
      refine ⟨[[]], rfl, ?_⟩
      simp [regexMatch, matchSeq]
    | true =>
      refine ⟨[atoms f ++ [.eol, .one (.lit '_'), .one (.lit '0')]], ?_, ?_⟩
      · show parseRegex (escapeRegex f ++ "$_0".toList ++ ['|'] ++ []).dropLast = _
        rw [List.append_nil, List.dropLast_concat, parseRegex, parseFrom_escape f hf]
        have : parseFrom ((atoms f).reverse ++ []) "$_0".toList
            = some [atoms f ++ [.eol, .one (.lit '_'), .one (.lit '0')]] := by
          have e : "$_0".toList = ['$', '_', '0'] := by decide +kernel
          rw [e, parseFrom, parseFrom_lit _ _ _ (by decide), parseFrom_lit _ _ _ (by decide), parseFrom]
          simp
        rw [this]
      · simp [regexMatch, matchSeq_eol]
  obtain ⟨re, h1, h2⟩ := hfile
  have h3 : parseFunctionSetFile M .absent = .ok [[]] := rfl
  unfold select
  rw [h1, h3]
  have h4 : regexMatch [[]] (f ++ "$_0".toList) = false := by simp [regexMatch, matchSeq]
  show Except.ok (List.filter _ _) = _
  rw [List.filter_cons, List.filter_nil]
  simp only [h2, h4]
  rfl

/-- **C38** is false of the module `*` for a module whose path has no dot: `* f` does not list
its functions. -/
theorem C38_star_module_wrong :
    ¬ ModMatches "*".toList "/home/u/prog".toList ∧ Glob "*".toList "/home/u/prog".toList := by
  refine ⟨?_, ?_⟩
  · rw [← glob_modPattern, ← matchSeq_atoms _ _ (by unfold OneLine; decide +kernel)]; decide +kernel
  · exact Glob.star "/home/u/prog".toList Glob.nil

/-- A module pattern without directory, wildcard and dot lists the files of that name in every
directory, with any extension. -/
theorem C38_module (m M : List Char) (h : ∀ c ∈ m, c ≠ '*' ∧ c ≠ '.' ∧ c ≠ '/') :
    ModMatches m M ↔ ∃ dir ext, M = dir ++ '/' :: m ++ '.' :: ext := by
  have hg : ∀ m : List Char, (∀ c ∈ m, c ≠ '*') → ∀ s, Glob m s ↔ s = m := by
    intro m
    induction m with
    | nil => intro _ s; exact ⟨fun h => by cases h; rfl, fun h => h ▸ .nil⟩
    | cons c m ih =>
      intro h s
      have hc := h c (List.mem_cons_self ..)
      have ih := ih (fun d hd => h d (List.mem_cons_of_mem _ hd))
      constructor
      · intro hs
        cases hs with
        | char _ hs => rw [(ih _).1 hs]
        | star => exact absurd rfl hc
      · rintro rfl; exact .char hc ((ih _).2 rfl)
  have hr : m.head? ≠ some '/' := by
    cases m with
    | nil => simp
    | cons c m => simpa using (h c (List.mem_cons_self ..)).2.2
  have he : hasExtension m = false := by
    unfold hasExtension
    have : (fileName m).contains '.' = false := by
      rw [Bool.eq_false_iff]
      intro hx
      have hx := List.contains_iff_mem.1 hx
      unfold fileName at hx
      have := List.mem_reverse.1 ((List.takeWhile_sublist _).subset (List.mem_reverse.1 hx))
      exact (h _ this).2.1 rfl
    simp only [this, Bool.false_and]
  unfold ModMatches
  simp only [if_neg hr, he, Bool.false_eq_true, if_false]
  constructor
  · rintro ⟨pre, body, post, rfl, hb, ⟨dir, rfl⟩, ⟨ext, rfl⟩⟩
    rw [(hg m (fun c hc => (h c hc).1) _).1 hb]
    exact ⟨dir, ext, by simp⟩
  · rintro ⟨dir, ext, rfl⟩
    exact ⟨dir ++ ['/'], m, '.' :: ext, by simp, (hg m (fun c hc => (h c hc).1) _).2 rfl, ⟨dir, rfl⟩, ⟨ext, rfl⟩⟩

example : ∃ re, parseRegex (escapeRegex "dir*/a.c".toList) = .ok re ∧
    regexMatch re "dir1/b/a.c".toList = true ∧ regexMatch re "dir1/a_c".toList = false := by
  exact ⟨_, rfl, by decide +kernel, by decide +kernel⟩

/-- **C37** A list that is given and cannot be opened stops the compilation, with or without
`--function`; nothing is selected. -/
theorem C37_unreadable (M f : List Char) (names : List (List Char)) :
    (∀ exc, select M .unreadable exc f names = .error .fatal) ∧
    (∀ inc, (inc = .absent ∨ inc = .text []) → select M inc .unreadable f names = .error .fatal) := by
  refine ⟨fun _ => rfl, ?_⟩
  rintro _ (rfl | rfl) <;> rfl

example : select "./a.c".toList .unreadable .absent "f".toList ["f".toList] = .error .fatal := by
  decide

end Verif.Pass
