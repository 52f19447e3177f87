import Verif.Driver.Model
import Mathlib.Data.List.Basic

/-!
# The compiler driver: C49, C60
-/

namespace Verif.Driver

/-- The text is split into exactly these words. -/
def Lex (a : List Char) (ws : List (List Char)) : Prop := shWords a = .words ws

/-- Put words in front. -/
def Sh.prepend (ws : List (List Char)) (r : Sh) : Sh := ws.foldr Sh.cons r

theorem sh_append (a b : List Char) :
    (∀ cur ws, shOut cur a = .words ws → shOut cur (a ++ ' ' :: b) = Sh.prepend ws (shOut none b)) ∧
    (∀ cur ws, shIn cur a = .words ws → shIn cur (a ++ ' ' :: b) = Sh.prepend ws (shOut none b)) := by
  induction a with
  | nil =>
    refine ⟨fun cur ws h => ?_, fun cur ws h => ?_⟩
    · cases cur with
      | none =>
        simp only [shOut, Sh.words.injEq] at h
        subst h
        simp [shOut, isSpace, Sh.prepend]
      | some w =>
        simp only [shOut, Sh.words.injEq] at h
        subst h
        simp [shOut, isSpace, Sh.prepend]
    · simp [shIn] at h
  | cons c a ih =>
    obtain ⟨ih1, ih2⟩ := ih
    refine ⟨fun cur ws h => ?_, fun cur ws h => ?_⟩
    · rw [List.cons_append]
      rw [shOut.eq_def] at h ⊢
      simp only [] at h ⊢
      by_cases hs : isSpace c = true
      · rw [if_pos hs] at h ⊢
        cases cur with
        | none => exact ih1 _ _ h
        | some w =>
          simp only at h ⊢
          cases hr : shOut none a with
          | words ws' =>
            rw [hr] at h
            simp only [Sh.cons, Sh.words.injEq] at h
            subst h
            rw [ih1 _ _ hr]
            rfl
          | unterminated => rw [hr] at h; cases h
          | special => rw [hr] at h; cases h
      · rw [if_neg hs] at h ⊢
        by_cases hq : c = '\''
        · rw [if_pos hq] at h ⊢; exact ih2 _ _ h
        · rw [if_neg hq] at h ⊢
          by_cases hp : isSpecial c = true
          · rw [if_pos hp] at h; cases h
          · rw [if_neg hp] at h ⊢; exact ih1 _ _ h
    · rw [List.cons_append]
      rw [shIn] at h ⊢
      by_cases hq : c = '\''
      · rw [if_pos hq] at h ⊢; exact ih1 _ _ h
      · rw [if_neg hq] at h ⊢; exact ih2 _ _ h

theorem Lex.space {a b : List Char} {wa wb : List (List Char)} (ha : Lex a wa) (hb : Lex b wb) :
    Lex (a ++ ' ' :: b) (wa ++ wb) := by
  unfold Lex shWords at *
  rw [(sh_append a b).1 none wa ha, hb]
  clear ha
  induction wa with
  | nil => rfl
  | cons w wa ih => simp only [Sh.prepend, List.foldr_cons] at ih ⊢; rw [ih]; rfl

theorem Lex.lead {b : List Char} {wb : List (List Char)} (hb : Lex b wb) : Lex (' ' :: b) wb := by
  have h0 : Lex [] [] := rfl
  exact h0.space hb

theorem Lex.trail {a : List Char} {wa : List (List Char)} (ha : Lex a wa) : Lex (a ++ [' ']) wa := by
  have := ha.space (b := []) (wb := []) rfl
  rwa [List.append_nil] at this

theorem lex_escape (a : List Char) (h : '\'' ∉ a) : Lex (shellEscape a) [a] := by
  have key : ∀ (a cur : List Char), '\'' ∉ a → shIn cur (a ++ ['\'']) = .words [cur.reverse ++ a] := by
    intro a
    induction a with
    | nil => intro cur _; simp [shIn, shOut]
    | cons c a ih =>
      intro cur h
      have hc : c ≠ '\'' := fun e => h (e ▸ List.mem_cons_self ..)
      rw [List.cons_append, shIn, if_neg hc, ih _ (fun hx => h (List.mem_cons_of_mem _ hx))]
      simp
  unfold Lex shWords shellEscape
  rw [List.append_assoc, List.singleton_append, shOut]
  rw [if_neg (by decide), if_pos rfl, key a _ h]
  rfl

theorem lex_join (l : List (List Char)) (h : ∀ a ∈ l, '\'' ∉ a) :
    Lex (join (l.map shellEscape)) l := by
  induction l with
  | nil => rfl
  | cons a l ih =>
    have ha := lex_escape a (h a (List.mem_cons_self ..))
    have ih := ih (fun b hb => h b (List.mem_cons_of_mem _ hb))
    cases l with
    | nil => exact ha
    | cons b l => exact ha.space ih

/-! ## Sorting the arguments -/

/-- The driver takes the argument for an option. -/
def IsOption (flang : Bool) (a : List Char) : Bool := classify flang a == .ok .option

theorem parseExtra_options (flang : Bool) (args : List (List Char)) (e : Extra)
    (h : parseExtra flang args = .ok e) :
    e.options = (args.filter (IsOption flang)).map shellEscape := by
  induction args generalizing e with
  | nil => simp only [parseExtra, Outcome.ok.injEq] at h; subst h; rfl
  | cons a l ih =>
    rw [parseExtra] at h
    cases hc : classify flang a with
    | exit => rw [hc] at h; cases h
    | ub => rw [hc] at h; cases h
    | ok k =>
      rw [hc, Outcome.bind_ok] at h
      cases hp : parseExtra flang l with
      | exit => rw [hp] at h; cases h
      | ub => rw [hp] at h; cases h
      | ok e' =>
        rw [hp, Outcome.bind_ok] at h
        have ih := ih e' hp
        have hI : IsOption flang a = (k == .option) := by
          unfold IsOption; rw [hc]; cases k <;> rfl
        rw [List.filter_cons, hI]
        cases k with
        | source =>
          simp only [Outcome.ok.injEq] at h
          rw [← h]
          exact ih
        | library =>
          simp only [Outcome.ok.injEq] at h
          rw [← h]
          exact ih
        | option =>
          simp only [Outcome.ok.injEq] at h
          rw [← h]
          show shellEscape a :: e'.options = _
          rw [ih]; rfl

/-- Every extension of a source. -/
def sourceExtensions : List (List Char) :=
  fortranExtensions ++ cExtensions ++ cxxExtensions ++ assemblyExtensions ++ bitcodeExtensions

theorem splitext_suffix (p : List Char) : (splitext p).2 <:+ p := by
  unfold splitext
  simp only []
  have hbase : (p.reverse.takeWhile (· != '/')).reverse <:+ p := by
    have := List.takeWhile_prefix (· != '/') (l := p.reverse)
    have := List.reverse_suffix.2 this
    rwa [List.reverse_reverse] at this
  generalize (p.reverse.takeWhile (· != '/')).reverse = base at *
  unfold rsplit
  split
  · exact List.nil_suffix
  · next stem ext h =>
    split
    · exact List.nil_suffix
    · split at h
      · next hc =>
        simp only [Option.some.injEq, Prod.mk.injEq] at h
        obtain ⟨-, rfl⟩ := h
        refine List.IsSuffix.trans ?_ hbase
        have hd : ∀ l : List Char, '.' ∈ l → l.takeWhile (· != '.') ++ ['.'] <+: l := by
          intro l
          induction l with
          | nil => intro h; cases h
          | cons c l ih =>
            intro h
            by_cases hx : c = '.'
            · subst hx; exact ⟨l, by simp⟩
            · rw [List.takeWhile_cons_of_pos (by simpa using hx)]
              obtain ⟨r, hr⟩ := ih (by simpa [Ne.symm hx] using h)
              exact ⟨r, by rw [List.cons_append, List.cons_append, hr]⟩
        have := hd base.reverse (by simpa using hc)
        have := List.reverse_suffix.2 this
        rw [List.reverse_reverse, List.reverse_append] at this
        exact this
      · cases h

/-- **C49** An argument that does not begin with `-l` and does not end, in any case of letters,
with the extension of a source is an option. -/
theorem C49_class (flang : Bool) (a : List Char) (hl : ¬ ['-', 'l'] <+: a)
    (he : ∀ x ∈ sourceExtensions, ¬ x <:+ lower a) : IsOption flang a = true := by
  have hno : ∀ exts, (∀ x ∈ exts, x ∈ sourceExtensions) → hasExt exts a = false := by
    intro exts hsub
    rw [Bool.eq_false_iff]
    intro h
    have hm := List.contains_iff_mem.1 h
    obtain ⟨r, hr⟩ := splitext_suffix a
    refine he _ (hsub _ hm) ⟨lower r, ?_⟩
    unfold lower
    rw [← List.map_append, hr]
  have hp : ['-', 'l'].isPrefixOf a = false := by
    rw [Bool.eq_false_iff]
    exact fun h => hl (List.isPrefixOf_iff_prefix.1 h)
  unfold IsOption classify
  rw [hno fortranExtensions (by intro x hx; simp [sourceExtensions, hx]),
    hno cExtensions (by intro x hx; simp [sourceExtensions, hx]),
    hno cxxExtensions (by intro x hx; simp [sourceExtensions, hx]),
    hno assemblyExtensions (by intro x hx; simp [sourceExtensions, hx]),
    hno bitcodeExtensions (by intro x hx; simp [sourceExtensions, hx]), hp]
  rfl

/-- The words of the option `main` adds. -/
def addedWords (isFlang : Bool) : List (List Char) :=
  if isFlang then [] else ["-Wno-unused-command-line-argument".toList]

theorem lex_mainOptions (isFlang : Bool) (l : List (List Char)) (h : ∀ a ∈ l, '\'' ∉ a) :
    Lex (mainOptions isFlang (l.map shellEscape)) (l ++ addedWords isFlang) := by
  have hl := lex_join l h
  unfold mainOptions addedWords
  cases isFlang with
  | true => simpa using hl
  | false =>
    have hw : Lex "-Wno-unused-command-line-argument ".toList
      ["-Wno-unused-command-line-argument".toList] := by unfold Lex; decide +kernel
    exact hl.space hw

/-- **C49** Compilation of a source: the options reach the compiler as the same words, in the
same order, if none has a single quote. -/
theorem C49_compile_partial (flang isFlang : Bool) (args : List (List Char)) (e : Extra)
    (h : parseExtra flang args = .ok e) (hq : ∀ a ∈ args, '\'' ∉ a)
    (compiler emit debug source include_ ir : List Char)
    (wc we wd ws wi wr : List (List Char)) (hc : Lex compiler wc) (hem : Lex emit we)
    (hd : Lex debug wd) (hs : Lex source ws) (hi : Lex include_ wi) (hr : Lex ir wr) :
    shWords (irCommand compiler emit debug source include_ (mainOptions isFlang e.options) ir)
      = .words (wc ++ ["-c".toList] ++ we ++ ["-emit-llvm".toList] ++ wd ++ ws ++ ["-I".toList] ++
          wi ++ args.filter (IsOption flang) ++ addedWords isFlang ++ ["-o".toList] ++ wr) := by
  rw [parseExtra_options flang args e h]
  have ho := lex_mainOptions isFlang (args.filter (IsOption flang))
    (fun a ha => hq a (List.mem_filter.1 ha).1)
  generalize mainOptions isFlang ((args.filter (IsOption flang)).map shellEscape) = opts at *
  have h1 : Lex "-c".toList ["-c".toList] := by unfold Lex; decide +kernel
  have h2 : Lex "-emit-llvm".toList ["-emit-llvm".toList] := by unfold Lex; decide +kernel
  have h3 : Lex "-I".toList ["-I".toList] := by unfold Lex; decide +kernel
  have h4 : Lex "-o".toList ["-o".toList] := by unfold Lex; decide +kernel
  have hcmd : irCommand compiler emit debug source include_ opts ir
      = compiler ++ ' ' :: ("-c".toList ++ ' ' :: (emit ++ ' ' :: ("-emit-llvm".toList ++ ' ' ::
        (debug ++ ' ' :: (source ++ ' ' :: (' ' :: ("-I".toList ++ ' ' :: (include_ ++ ' ' ::
          (' ' :: (' ' :: (opts ++ ' ' :: ("-o".toList ++ ' ' :: ir)))))))))))) := by
    simp [irCommand]
  have := hc.space (h1.space (hem.space (h2.space (hd.space (hs.space (Lex.lead (h3.space
    (hi.space (Lex.lead (Lex.lead (ho.space (h4.space hr))))))))))))
  rw [← hcmd] at this
  unfold Lex at this
  rw [this]
  simp

/-- **C49** Production of the object file. -/
theorem C49_object_partial (flang isFlang : Bool) (args : List (List Char)) (e : Extra)
    (h : parseExtra flang args = .ok e) (hq : ∀ a ∈ args, '\'' ∉ a)
    (compiler output ins : List Char) (wc wo wi : List (List Char)) (hc : Lex compiler wc)
    (hou : Lex output wo) (hi : Lex ins wi) :
    shWords (objCommand compiler output ins (mainOptions isFlang e.options))
      = .words (wc ++ ["-c".toList] ++ wo ++ wi ++ args.filter (IsOption flang) ++
          addedWords isFlang) := by
  rw [parseExtra_options flang args e h]
  have ho := lex_mainOptions isFlang (args.filter (IsOption flang))
    (fun a ha => hq a (List.mem_filter.1 ha).1)
  generalize mainOptions isFlang ((args.filter (IsOption flang)).map shellEscape) = opts at *
  have h1 : Lex "-c".toList ["-c".toList] := by unfold Lex; decide +kernel
  have hcmd : objCommand compiler output ins opts
      = compiler ++ ' ' :: ("-c".toList ++ ' ' :: (output ++ ' ' :: (ins ++ ' ' :: opts))) := by
    simp [objCommand]
  have := hc.space (h1.space (hou.space (hi.space ho)))
  rw [← hcmd] at this
  unfold Lex at this
  rw [this]
  simp

/-- **C49** Linking. -/
theorem C49_link_partial (flang isFlang nopie : Bool) (args : List (List Char)) (e : Extra)
    (h : parseExtra flang args = .ok e) (hq : ∀ a ∈ args, '\'' ∉ a)
    (linker output wrapper mcalib stdlib : List Char) (wl wo wob wli ww wm wst : List (List Char))
    (hl : Lex linker wl) (hou : Lex output wo)
    (hob : Lex (join (e.sources.map objectName)) wob) (hli : Lex (join e.libraries) wli)
    (hw : Lex wrapper ww) (hm : Lex mcalib wm) (hst : Lex stdlib wst) :
    shWords (linkCommand linker output e.sources (mainOptions isFlang e.options)
        (join e.libraries) nopie wrapper mcalib stdlib)
      = .words (wl ++ wo ++ wob ++ args.filter (IsOption flang) ++ addedWords isFlang ++
          (if nopie then ["-no-pie".toList] else []) ++ wli ++ ww ++ wm ++ ["-ldl".toList] ++ wst) := by
  rw [parseExtra_options flang args e h]
  have ho := lex_mainOptions isFlang (args.filter (IsOption flang))
    (fun a ha => hq a (List.mem_filter.1 ha).1)
  generalize mainOptions isFlang ((args.filter (IsOption flang)).map shellEscape) = opts at *
  have h1 : Lex "-ldl".toList ["-ldl".toList] := by unfold Lex; decide +kernel
  have hop : Lex (opts ++ if nopie then " -no-pie ".toList else [])
      (args.filter (IsOption flang) ++ addedWords isFlang ++
        (if nopie then ["-no-pie".toList] else [])) := by
    cases nopie with
    | false => simpa using ho
    | true =>
      have h2 : Lex "-no-pie ".toList ["-no-pie".toList] := by unfold Lex; decide +kernel
      exact ho.space h2
  unfold linkCommand
  generalize hobjs : join (e.sources.map objectName) = objs at *
  generalize hlibs : join e.libraries = libs at *
  generalize (opts ++ if nopie then " -no-pie ".toList else []) = opts' at *
  have hcmd : linker ++ " ".toList ++ output ++ " ".toList ++ objs ++ " ".toList ++
    opts' ++ " ".toList ++ libs ++ " ".toList ++
    wrapper ++ "  ".toList ++ mcalib ++ " -ldl ".toList ++ stdlib ++ " ".toList
      = linker ++ ' ' :: (output ++ ' ' :: (objs ++ ' ' :: (opts' ++ ' ' :: (libs ++ ' ' ::
        (wrapper ++ ' ' :: (' ' :: (mcalib ++ ' ' :: ("-ldl".toList ++ ' ' :: (stdlib ++ [' '])))))))))
      := by simp
  have := hl.space (hou.space (hob.space (hop.space (hli.space (hw.space (Lex.lead
    (hm.space (h1.space hst.trail))))))))
  rw [← hcmd] at this
  unfold Lex at this
  rw [this]
  simp

/-- Spaces, double quotes, dollars, wildcards and backslashes are kept. -/
example : (parseExtra false ["-DX=\"a b\"".toList, "main.c".toList, "-I$HOME/*".toList, "-lm".toList,
      "-DY=\\n".toList]).bind (fun e => .ok (shWords (join e.options)))
    = .ok (.words ["-DX=\"a b\"".toList, "-I$HOME/*".toList, "-DY=\\n".toList]) := by decide +kernel

/-! ## What goes wrong -/

/-- **C49** is false of an option with a quoted part: the quotes are lost. -/
theorem C49_quote_wrong (p q r : List Char) (hp : '\'' ∉ p) (hr : '\'' ∉ r)
    (hq : ∀ c ∈ q, c ≠ '\'' ∧ isSpace c = false ∧ isSpecial c = false) :
    Lex (shellEscape (p ++ '\'' :: q ++ '\'' :: r)) [p ++ q ++ r] := by
  have hin : ∀ (a cur t : List Char), '\'' ∉ a →
      shIn cur (a ++ '\'' :: t) = shOut (some (a.reverse ++ cur)) t := by
    intro a
    induction a with
    | nil => intro cur t _; simp [shIn]
    | cons c a ih =>
      intro cur t h
      have hc : c ≠ '\'' := fun e => h (e ▸ List.mem_cons_self ..)
      rw [List.cons_append, shIn, if_neg hc, ih _ _ (fun hx => h (List.mem_cons_of_mem _ hx))]
      simp
  have hout : ∀ (a cur t : List Char), (∀ c ∈ a, c ≠ '\'' ∧ isSpace c = false ∧ isSpecial c = false) →
      shOut (some cur) (a ++ '\'' :: t) = shIn (a.reverse ++ cur) t := by
    intro a
    induction a with
    | nil =>
      intro cur t _
      rw [List.nil_append, shOut, if_neg (by decide), if_pos rfl]
      simp
    | cons c a ih =>
      intro cur t h
      have hc := h c (List.mem_cons_self ..)
      rw [List.cons_append, shOut, if_neg (by simp [hc.2.1]), if_neg hc.1, if_neg (by simp [hc.2.2]),
        ih _ _ (fun d hd => h d (List.mem_cons_of_mem _ hd))]
      simp
  unfold Lex shWords shellEscape
  have : ['\''] ++ (p ++ '\'' :: q ++ '\'' :: r) ++ ['\'']
      = '\'' :: (p ++ '\'' :: (q ++ '\'' :: (r ++ '\'' :: []))) := by simp
  rw [this, shOut, if_neg (by decide), if_pos rfl, hin _ _ _ hp, hout _ _ _ hq, hin _ _ _ hr]
  simp [shOut]

example : Lex (shellEscape "-DX='a'".toList) ["-DX=a".toList] := by unfold Lex; decide +kernel

/-- **C49** is false of an option with a single quote in it: the shell refuses the command. -/
theorem C49_unterminated_wrong (p q : List Char) (hp : '\'' ∉ p)
    (hq : ∀ c ∈ q, c ≠ '\'' ∧ isSpace c = false ∧ isSpecial c = false) :
    shWords (shellEscape (p ++ '\'' :: q)) = .unterminated := by
  have hin : ∀ (a cur t : List Char), '\'' ∉ a →
      shIn cur (a ++ '\'' :: t) = shOut (some (a.reverse ++ cur)) t := by
    intro a
    induction a with
    | nil => intro cur t _; simp [shIn]
    | cons c a ih =>
      intro cur t h
      have hc : c ≠ '\'' := fun e => h (e ▸ List.mem_cons_self ..)
      rw [List.cons_append, shIn, if_neg hc, ih _ _ (fun hx => h (List.mem_cons_of_mem _ hx))]
      simp
  have hout : ∀ (a cur : List Char), (∀ c ∈ a, c ≠ '\'' ∧ isSpace c = false ∧ isSpecial c = false) →
      shOut (some cur) (a ++ ['\'']) = .unterminated := by
    intro a
    induction a with
    | nil =>
      intro cur _
      rw [List.nil_append, shOut, if_neg (by decide), if_pos rfl]
      simp [shIn]
    | cons c a ih =>
      intro cur h
      have hc := h c (List.mem_cons_self ..)
      rw [List.cons_append, shOut, if_neg (by simp [hc.2.1]), if_neg hc.1, if_neg (by simp [hc.2.2]),
        ih _ (fun d hd => h d (List.mem_cons_of_mem _ hd))]
  unfold shWords shellEscape
  have : ['\''] ++ (p ++ '\'' :: q) ++ ['\''] = '\'' :: (p ++ '\'' :: (q ++ ['\''])) := by simp
  rw [this, shOut, if_neg (by decide), if_pos rfl, hin _ _ _ hp, hout _ _ hq]

/-- **C49** is false of an option that ends like a source: it is taken for one. -/
theorem C49_source_wrong (flang : Bool) (x : List Char) (hx : '/' ∉ x) :
    classify flang ("-D".toList ++ x ++ ".c".toList) = .ok .source := by
  have hs : splitext ("-D".toList ++ x ++ ".c".toList) = ("-D".toList ++ x, ".c".toList) := by
    have hall : ∀ c ∈ ("-D".toList ++ x ++ ".c".toList).reverse, (c != '/') = true := by
      intro c hc
      simp only [List.mem_reverse, List.mem_append] at hc
      simp only [bne_iff_ne]
      rintro rfl
      rcases hc with (h | h) | h
      · revert h; decide +kernel
      · exact hx h
      · revert h; decide +kernel
    unfold splitext
    simp only []
    have htw : ∀ l : List Char, (∀ c ∈ l, (c != '/') = true) → l.takeWhile (· != '/') = l := by
      intro l
      induction l with
      | nil => intro _; rfl
      | cons c l ih =>
        intro h
        rw [List.takeWhile_cons_of_pos (p := (· != '/')) (h c (List.mem_cons_self ..)),
          ih (fun d hd => h d (List.mem_cons_of_mem _ hd))]
    rw [htw _ hall, List.reverse_reverse]
    have hr : rsplit '.' ("-D".toList ++ x ++ ".c".toList) = some ("-D".toList ++ x, ['c']) := by
      unfold rsplit
      rw [if_pos (by simp)]
      have : ("-D".toList ++ x ++ ".c".toList).reverse = 'c' :: '.' :: ("-D".toList ++ x).reverse := by
        simp
      rw [this, List.takeWhile_cons_of_pos (by decide), List.takeWhile_cons_of_neg (by decide)]
      simp
    rw [hr]
    simp
  have hf : hasExt fortranExtensions ("-D".toList ++ x ++ ".c".toList) = false := by
    unfold hasExt; rw [hs]; clear hs; simp only []; decide +kernel
  have hc : hasExt cExtensions ("-D".toList ++ x ++ ".c".toList) = true := by
    unfold hasExt; rw [hs]; clear hs; simp only []; decide +kernel
  unfold classify
  rw [hf, hc]
  rfl

/-- **C49** is false of libraries and sources, which are not quoted: a blank splits them. -/
theorem C49_library_wrong :
    (parseExtra false ["-la b".toList]).bind (fun e => .ok (shWords (join e.libraries)))
      = .ok (.words ["-la".toList, "b".toList]) := by decide +kernel

/-! ## Objects -/

theorem objectName_inj (s t : List Char) (h : (splitext s).1 ≠ (splitext t).1) :
    objectName s ≠ objectName t := fun e => h (List.append_cancel_right e)

/-- **C60** Sources whose names differ apart from the extension get different objects. -/
theorem C60_objects_partial (l : List (List Char))
    (h : (l.map fun s => (splitext s).1).Nodup) : (l.map objectName).Nodup := by
  have : l.map objectName = (l.map fun s => (splitext s).1).map (· ++ ".o".toList) := by
    simp [objectName]
  rw [this]
  exact List.Pairwise.map _ (fun a b hne e => hne (List.append_cancel_right e)) h

/-- **C60** is false of sources that only differ by the extension. -/
theorem C60_objects_wrong : objectName "a.c".toList = objectName "a.cpp".toList := by decide +kernel

/-- **C60** A name with one of the listed extensions, in any case, is a source. -/
theorem C60_source (a : List Char)
    (h : lower (splitext a).2 ∈ cExtensions ++ cxxExtensions ++ assemblyExtensions ++ bitcodeExtensions) :
    classify true a = .ok .source := by
  unfold classify
  simp only [List.mem_append] at h
  have hx : ∀ exts, lower (splitext a).2 ∈ exts → hasExt exts a = true :=
    fun exts hm => List.contains_iff_mem.2 hm
  rcases h with ((h | h) | h) | h <;> simp only [hx _ h, if_true] <;> repeat' split
  all_goals rfl

/-- **C60** is false of the extension `.c++`: the list holds `c++`, which `splitext` never
returns. -/
theorem C60_cxx_wrong (flang : Bool) : classify flang "a.c++".toList = .ok .option := by
  cases flang <;> decide +kernel

end Verif.Driver
