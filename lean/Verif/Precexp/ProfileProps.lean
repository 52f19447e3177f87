import Verif.Precexp.FileProps

/-!
# C63: reading the profile
-/

namespace Verif.Precexp
open Verif Verif.Vfi

/-! ## Texts -/

theorem readlines_line (l rest : List Char) (h : '\n' ∉ l) : readlines (l ++ '\n' :: rest) = (l ++ ['\n']) :: readlines rest := by
  induction l with
  | nil => simp [readlines]
  | cons c cs ih =>
    simp only [List.mem_cons, not_or] at h
    rw [List.cons_append, readlines, if_neg (fun e => h.1 e.symm), ih h.2]
    rfl

theorem readlines_tabbed (xs : List (List Char)) (rest : List Char) (h : ∀ x ∈ xs, '\n' ∉ x) :
    readlines (tabbed xs ++ rest) = tabbed xs :: readlines rest := by
  obtain ⟨l, h1, h2, -⟩ := tabbed_split xs h
  rw [h1, List.append_assoc, List.singleton_append, readlines_line l rest h2]

theorem splitTab_tabbed (xs : List (List Char)) (hne : xs ≠ []) (h : ∀ x ∈ xs, '\t' ∉ x) : splitTab (tabbed xs) = lastNl xs := by
  induction xs with
  | nil => exact absurd rfl hne
  | cons x xs ih =>
    have hx := h x (by simp)
    rcases xs with _ | ⟨y, xs⟩
    · rw [tabbed, lastNl, splitTab, List.splitOnP_eq_singleton]
      intro c hc
      simp only [List.mem_append, List.mem_singleton] at hc
      rcases hc with hc | rfl
      · simp; rintro rfl; exact hx hc
      · decide
    · rw [tabbed, lastNl, splitTab, List.splitOnP_append_cons_of_forall_mem]
      · rw [← ih (by simp) (fun z hz => h z (by simp [hz]))]; rfl
      · intro c hc; simp; rintro rfl; exact hx hc
      · decide

/-- A word: not empty, without white space. -/
structure Word (x : List Char) : Prop where
  ne : x ≠ []
  ws : ∀ c ∈ x, isWs c = false

theorem splitWs_tabbed (xs : List (List Char)) (h : ∀ x ∈ xs, Word x) : splitWs (tabbed xs) = xs := by
  induction xs with
  | nil => decide
  | cons x xs ih =>
    have hx := h x (by simp)
    have h1 := hx.ws
    rcases xs with _ | ⟨y, xs⟩
    · rw [tabbed, splitWs, List.splitOnP_append_cons_of_forall_mem h1 _ (by decide)]
      simp [hx.ne]
    · rw [tabbed, splitWs, List.splitOnP_append_cons_of_forall_mem h1 _ (by decide), List.filter_cons, if_pos (by simp [hx.ne])]
      have := ih (fun z hz => h z (by simp [hz]))
      rw [splitWs] at this
      rw [this]

theorem digit_ws (c : Char) (h : c.isDigit = true) : isWs c = false := by
  unfold isWs
  simp only [Bool.or_eq_false_iff, beq_eq_false_iff_ne]
  refine ⟨⟨⟨⟨⟨?_, ?_⟩, ?_⟩, ?_⟩, ?_⟩, ?_⟩ <;> rintro rfl <;> exact absurd h (by decide)

theorem dec_word (n : Int) : Word (dec n) := by
  obtain ⟨c, cs, e, hc, hcs⟩ := toDigits_spec n.natAbs
  have hd : ∀ d ∈ Nat.toDigits 10 n.natAbs, isWs d = false := by
    rw [e]
    intro d hd
    rcases List.mem_cons.1 hd with rfl | hd
    · exact digit_ws _ hc
    · exact digit_ws _ (hcs d hd)
  unfold dec
  split
  · exact ⟨by simp, fun d h => by
      rcases List.mem_cons.1 h with rfl | h
      · decide
      · exact hd d h⟩
  · exact ⟨by rw [e]; simp, hd⟩

theorem dropWhile_word {x : List Char} (h : ∀ c ∈ x, isWs c = false) : x.dropWhile isWs = x := by
  rcases x with _ | ⟨c, cs⟩
  · rfl
  · rw [List.dropWhile_cons_of_neg (by simp [h c (by simp)])]

theorem strip_word {x : List Char} (h : Word x) : strip x = x := by
  unfold strip
  rw [dropWhile_word h.ws, dropWhile_word (by simpa using h.ws), List.reverse_reverse]

theorem strip_word_nl {x : List Char} (h : Word x) : strip (x ++ ['\n']) = x := by
  unfold strip
  have : (x ++ ['\n']).dropWhile isWs = x ++ ['\n'] := by
    obtain ⟨c, cs, rfl⟩ := List.exists_cons_of_ne_nil h.ne
    rw [List.cons_append, List.dropWhile_cons_of_neg (by simp [h.ws c (by simp)])]
  rw [this, List.reverse_append, List.reverse_singleton, List.singleton_append, List.dropWhile_cons_of_pos (by decide),
    dropWhile_word (by simpa using h.ws), List.reverse_reverse]

theorem digitsVal_toDigits (n : Nat) : digitsVal (Nat.toDigits 10 n) = some n := by
  obtain ⟨c, cs, e, hc, hcs⟩ := toDigits_spec n
  unfold digitsVal
  rw [if_pos]
  · congr 1
    have := Nat.ofDigitChars_ten_toDigits (n := n)
    rw [Nat.ofDigitChars_eq_foldl] at this
    conv_rhs => rw [← this]
    congr 1
    funext a c
    rw [Nat.mul_comm]
  · rw [e]
    refine ⟨by simp, ?_⟩
    rw [List.all_eq_true]
    intro d hd
    rcases List.mem_cons.1 hd with rfl | hd
    · exact hc
    · exact hcs d hd

theorem pyInt_of_strip {s : List Char} {n : Int} (h : strip s = dec n) : pyInt s = some n := by
  obtain ⟨c, cs, e, hc, hcs⟩ := toDigits_spec n.natAbs
  obtain ⟨-, -, c3, c4, -⟩ := isDigit_not c hc
  have hv := digitsVal_toDigits n.natAbs
  unfold pyInt
  rw [h]
  unfold dec
  split
  · rename_i hs
    split at hs
    · rename_i hn
      injection hs with _ hs
      rw [← hs, hv]
      exact congrArg some (by simp only []; omega)
    · rw [e] at hs; injection hs with hs _; exact absurd hs c3
  · rename_i hs
    split at hs
    · injection hs with hs _; exact absurd hs (by decide)
    · rw [e] at hs; injection hs with hs _; exact absurd hs c4
  · rename_i hne1 hne2
    by_cases hn : n < 0
    · exact (hne1 (Nat.toDigits 10 n.natAbs) (by rw [if_pos hn])).elim
    · rw [if_neg hn, hv]
      exact congrArg some (by simp only []; omega)

theorem pyInt_dec (n : Int) : pyInt (dec n) = some n := pyInt_of_strip (strip_word (dec_word n))

theorem pyInt_dec_nl (n : Int) : pyInt (dec n ++ ['\n']) = some n := pyInt_of_strip (strip_word_nl (dec_word n))

/-! ## Identifiers -/

theorem afterSlash_append (x y : List Char) (h : '/' ∉ y) : afterSlash (x ++ '/' :: y) = y := by
  unfold afterSlash
  have : ∀ c ∈ y.reverse, (c != '/') = true := by
    intro c hc; simp; rintro rfl; exact h (by simpa using hc)
  rw [List.reverse_append, List.reverse_cons, List.append_assoc, List.singleton_append, List.takeWhile_append_of_pos this]
  simp

theorem beforeSlash_append (x y : List Char) (h : '/' ∉ y) : beforeSlash (x ++ '/' :: y) = x := by
  unfold beforeSlash
  have : ∀ c ∈ y.reverse, (c != '/') = true := by
    intro c hc; simp; rintro rfl; exact h (by simpa using hc)
  rw [if_pos (by simp), List.reverse_append, List.reverse_cons, List.append_assoc, List.singleton_append,
    List.dropWhile_append_of_pos this]
  simp

theorem dec_slash (n : Int) : '/' ∉ dec n := by
  obtain ⟨c, cs, e, hc, hcs⟩ := toDigits_spec n.natAbs
  have hd : '/' ∉ Nat.toDigits 10 n.natAbs := by
    rw [e]
    intro hd
    rcases List.mem_cons.1 hd with rfl | hd
    · exact absurd hc (by decide)
    · exact absurd (hcs _ hd) (by decide)
  unfold dec
  split
  · simp only [List.mem_cons, not_or]; exact ⟨by decide, hd⟩
  · exact hd

/-- The identifier of a call: `file/parent/name/line/number`
(libVFCFuncInstrument.cpp:479-483, 545-551). -/
structure CallId (id parent name : Id) : Prop where
  shape : ∃ (file : List Char) (line nb : Int), id = file ++ '/' :: parent ++ '/' :: name ++ '/' :: dec line ++ '/' :: dec nb
  parent : '/' ∉ parent
  name : '/' ∉ name

theorem functionInfo_call {id parent name : Id} (h : CallId id parent name) : functionInfo id = some (parent, name) := by
  obtain ⟨⟨file, line, nb, rfl⟩, h1, h2⟩ := h
  unfold functionInfo
  simp only []
  rw [afterSlash_append _ _ (dec_slash _), beforeSlash_append _ _ (dec_slash _), afterSlash_append _ _ (dec_slash _),
    beforeSlash_append _ _ (dec_slash _), afterSlash_append _ _ h2, beforeSlash_append _ _ h2, afterSlash_append _ _ h1,
    pyInt_dec, pyInt_dec]
  rfl

/-! ## Records -/

/-- The row of a function. -/
def rowOf (f : Fn) : OpRow :=
  ⟨f.info.id, f.info.isLib.toInt, f.info.isIntr.toInt, f.info.useFloat.toInt, f.info.useDouble.toInt,
   f.prec64, f.range64, f.prec32, f.range32, (f.inArgs.getD []).length, (f.outArgs.getD []).length, f.nCalls⟩

/-- The row of an argument. -/
def argRowOf (f : Fn) (tag : String) (d : ArgData) : ArgRow :=
  ⟨f.info.id, d.id, f.info.isLib.toInt, f.info.isIntr.toInt, tag.toList, d.ty, d.manLen, d.expLen, d.minR, d.maxR, f.nCalls⟩

/-- The rows of the arguments of a function: inputs, then outputs. -/
def argRowsOf (f : Fn) : List ArgRow :=
  (f.inArgs.getD []).map (argRowOf f "input:") ++ (f.outArgs.getD []).map (argRowOf f "output:")

theorem decB_toInt (b : Bool) : decB b = dec b.toInt := by cases b <;> rfl

theorem parseOp_write (f : Fn) (h : '\t' ∉ f.info.id) : parseOp (writeHeader f) = some (rowOf f) := by
  have hd : ∀ n : Int, '\t' ∉ dec n := fun n hn => absurd ((dec_word n).ws _ hn) (by decide)
  unfold parseOp writeHeader
  rw [splitTab_tabbed _ (by simp) (by
    intro x hx
    simp only [decB_toInt, List.mem_cons, List.not_mem_nil, or_false] at hx
    rcases hx with rfl | rfl | rfl | rfl | rfl | rfl | rfl | rfl | rfl | rfl | rfl | rfl
    · exact h
    all_goals exact hd _)]
  simp only [lastNl, decB_toInt, pyInt_dec, pyInt_dec_nl]
  rfl

theorem parseArg_write (f : Fn) (tag : String) (htag : Word tag.toList) (d : ArgData) (h : Word d.id) :
    parseArg (rowOf f) (writeArg tag d) = some (argRowOf f tag d) := by
  unfold parseArg writeArg
  rw [splitWs_tabbed _ (by
    intro x hx
    simp only [List.mem_cons, List.not_mem_nil, or_false] at hx
    rcases hx with rfl | rfl | rfl | rfl | rfl | rfl | rfl
    · exact htag
    · exact h
    all_goals exact dec_word _)]
  simp only [pyInt_dec]
  rfl

/-- A record whose names the tool can read. -/
structure Readable (f : Fn) : Prop where
  id : '\t' ∉ f.info.id ∧ '\n' ∉ f.info.id
  ins : ∀ d ∈ f.inArgs.getD [], Word d.id
  outs : ∀ d ∈ f.outArgs.getD [], Word d.id

/-- The lines of the arguments of a function. -/
def argLines (f : Fn) : List (List Char) :=
  (f.inArgs.getD []).map (writeArg "input:") ++ (f.outArgs.getD []).map (writeArg "output:")

theorem word_nl {x : List Char} (h : Word x) : '\n' ∉ x := fun hn => absurd (h.ws _ hn) (by decide)

theorem dec_nl (n : Int) : '\n' ∉ dec n := word_nl (dec_word n)

theorem readlines_args (tag : String) (htag : Word tag.toList) (ds : List ArgData) (h : ∀ d ∈ ds, Word d.id) (rest : List Char) :
    readlines (ds.flatMap (writeArg tag) ++ rest) = ds.map (writeArg tag) ++ readlines rest := by
  induction ds with
  | nil => rfl
  | cons d ds ih =>
    rw [List.flatMap_cons, List.append_assoc, writeArg, readlines_tabbed, ih (fun e he => h e (by simp [he]))]
    · rfl
    · intro x hx
      simp only [List.mem_cons, List.not_mem_nil, or_false] at hx
      rcases hx with rfl | rfl | rfl | rfl | rfl | rfl | rfl
      · exact word_nl htag
      · exact word_nl (h d (by simp))
      all_goals exact dec_nl _

theorem readlines_fn (f : Fn) (h : Readable f) (rest : List Char) :
    readlines (writeFn f ++ rest) = writeHeader f :: (argLines f ++ readlines rest) := by
  unfold writeFn
  rw [List.append_assoc, List.append_assoc, writeHeader, readlines_tabbed, readlines_args "input:" ⟨by decide, by decide⟩ _ h.ins,
    readlines_args "output:" ⟨by decide, by decide⟩ _ h.outs, argLines, List.append_assoc]
  intro x hx
  simp only [decB_toInt, List.mem_cons, List.not_mem_nil, or_false] at hx
  rcases hx with rfl | rfl | rfl | rfl | rfl | rfl | rfl | rfl | rfl | rfl | rfl | rfl
  · exact h.id.2
  all_goals exact dec_nl _

theorem mapM_map {α β γ} (f : β → Option γ) (g : α → β) (k : α → γ) : ∀ l : List α, (∀ a ∈ l, f (g a) = some (k a)) →
    (l.map g).mapM f = some (l.map k)
  | [], _ => rfl
  | a :: l, h => by
    rw [List.map_cons, List.mapM_cons, h a (by simp), mapM_map f g k l (fun b hb => h b (by simp [hb]))]; rfl

theorem parseArgs_write (f : Fn) (h : Readable f) : (argLines f).mapM (parseArg (rowOf f)) = some (argRowsOf f) := by
  unfold argLines argRowsOf
  rw [List.mapM_append, mapM_map _ _ _ _ (fun d hd => parseArg_write f "input:" ⟨by decide, by decide⟩ d (h.ins d hd)),
    mapM_map _ _ _ _ (fun d hd => parseArg_write f "output:" ⟨by decide, by decide⟩ d (h.outs d hd))]
  rfl

/-- Is a call selected by the list of functions given on the command line? -/
def Selected (list : List Id) (parent name : Id) : Prop := list = [] ∨ name ∈ list ∨ parent ∈ list

instance (list : List Id) (parent name : Id) : Decidable (Selected list parent name) := by unfold Selected; infer_instance

theorem readFns_write (list : List Id) (parent name : Fn → Id) : ∀ (fs : List Fn) (fuel : Nat), fs.length ≤ fuel →
    (∀ f ∈ fs, Readable f) → (∀ f ∈ fs, CallId f.info.id (parent f) (name f)) →
    readFns list fuel (readlines (write fs)) = some ((fs.filter fun f => Selected list (parent f) (name f)).map rowOf,
      (fs.filter fun f => Selected list (parent f) (name f)).flatMap argRowsOf)
  | [], fuel, _, _, _ => by cases fuel <;> rfl
  | f :: fs, 0, h, _, _ => by simp at h
  | f :: fs, fuel + 1, hl, hr, hc => by
    have hf := hr f (by simp)
    have hlen : (argLines f).length = ((rowOf f).ninputs + (rowOf f).noutputs).toNat := by
      simp only [argLines, rowOf, List.length_append, List.length_map]; omega
    have ih := readFns_write list parent name fs fuel (by simpa using hl) (fun g hg => hr g (by simp [hg])) (fun g hg => hc g (by simp [hg]))
    have hw : write (f :: fs) = writeFn f ++ write fs := by simp [write]
    rw [hw, readlines_fn f hf, readFns, parseOp_write f hf.id.1]
    simp only [Option.bind_eq_bind, Option.bind_some]
    rw [show (rowOf f).id = f.info.id from rfl, functionInfo_call (hc f (by simp))]
    simp only [Option.bind_some]
    rw [← hlen, List.drop_left, List.take_left]
    by_cases hs : Selected list (parent f) (name f)
    · rw [if_neg (by unfold Selected at hs; tauto), if_neg (by simp), parseArgs_write f hf]
      simp only [Option.bind_some]
      rw [ih]
      simp only [Option.bind_some, List.filter_cons, hs, decide_true, if_true, List.map_cons, List.flatMap_cons]
      rfl
    · rw [if_pos (by unfold Selected at hs; tauto), ih, List.filter_cons, if_neg (by simpa using hs)]

/-! ## Sorting -/

/-- A stable sort of blocks that share a key sorts the blocks. -/
theorem insert_block {α β κ : Type} (r : κ → κ → Bool) (ka : α → κ) (kb : β → κ) (f : α) (xs : List β) (hx : ∀ x ∈ xs, kb x = ka f)
    (hrefl : ∀ k, r k k = true) (A B : List β) (hA : ∀ x ∈ A, r (ka f) (kb x) = false) (hB : ∀ x ∈ B, r (ka f) (kb x) = true) :
    xs.foldr (List.orderedInsert fun a b => r (kb a) (kb b) = true) (A ++ B) = A ++ (xs ++ B) := by
  have one : ∀ (x : β) (A B : List β), kb x = ka f → (∀ y ∈ A, r (ka f) (kb y) = false) → (∀ y, B.head? = some y → r (ka f) (kb y) = true) →
      List.orderedInsert (fun a b => r (kb a) (kb b) = true) x (A ++ B) = A ++ x :: B := by
    intro x A
    induction A with
    | nil =>
      intro B hx _ hB
      rcases B with _ | ⟨b, B⟩
      · rfl
      · rw [List.nil_append, List.orderedInsert_cons, if_pos (by rw [hx]; exact hB b rfl)]; rfl
    | cons a A ih =>
      intro B hx hA hB
      rw [List.cons_append, List.orderedInsert_cons, if_neg (by rw [hx, hA a (by simp)]; decide), ih B hx (fun y hy => hA y (by simp [hy])) hB]
      rfl
  induction xs with
  | nil => rfl
  | cons x xs ih =>
    rw [List.foldr_cons, ih (fun y hy => hx y (by simp [hy])), one x A _ (hx x (by simp)) hA]
    · rfl
    · intro y hy
      rcases xs with _ | ⟨z, xs⟩
      · exact hB y (List.mem_of_mem_head? hy)
      · simp only [List.cons_append, List.head?_cons, Option.some.injEq] at hy
        rw [← hy, hx z (by simp)]; exact hrefl _

theorem sort_blocks {α β κ : Type} (r : κ → κ → Bool) (ka : α → κ) (kb : β → κ) (blk : α → List β) (hk : ∀ f, ∀ x ∈ blk f, kb x = ka f)
    (hrefl : ∀ k, r k k = true) (htrans : ∀ a b c, r a b = true → r b c = true → r a c = true) (htot : ∀ a b, r a b = true ∨ r b a = true)
    (fs : List α) :
    (fs.flatMap blk).insertionSort (fun a b => r (kb a) (kb b) = true) = (fs.insertionSort fun a b => r (ka a) (ka b) = true).flatMap blk := by
  have happ : ∀ (xs ys : List β), (xs ++ ys).insertionSort (fun a b => r (kb a) (kb b) = true) =
      xs.foldr (List.orderedInsert fun a b => r (kb a) (kb b) = true) (ys.insertionSort fun a b => r (kb a) (kb b) = true) := by
    intro xs ys
    induction xs with
    | nil => rfl
    | cons x xs ih => rw [List.cons_append, List.insertionSort_cons, ih]; rfl
  induction fs with
  | nil => rfl
  | cons f fs ih =>
    rw [List.flatMap_cons, happ, ih, List.insertionSort_cons]
    have : IsTrans α (fun a b => r (ka a) (ka b) = true) := ⟨fun a b c => htrans _ _ _⟩
    have : Std.Total (fun a b : α => r (ka a) (ka b) = true) := ⟨fun a b => htot _ _⟩
    have hs := List.pairwise_insertionSort (fun a b : α => r (ka a) (ka b) = true) fs
    generalize fs.insertionSort (fun a b => r (ka a) (ka b) = true) = S at hs
    -- split `S` where `f` goes
    have key : ∃ A B, S = A ++ B ∧ (∀ a ∈ A, r (ka f) (ka a) = false) ∧ (∀ b ∈ B, r (ka f) (ka b) = true) ∧
        List.orderedInsert (fun a b => r (ka a) (ka b) = true) f S = A ++ f :: B := by
      clear ih
      induction S with
      | nil => exact ⟨[], [], rfl, by simp, by simp, rfl⟩
      | cons a S ih =>
        rw [List.pairwise_cons] at hs
        by_cases hr : r (ka f) (ka a) = true
        · refine ⟨[], a :: S, rfl, by simp, fun b hb => ?_, ?_⟩
          · rcases List.mem_cons.1 hb with rfl | hb
            · exact hr
            · exact htrans _ _ _ hr (hs.1 b hb)
          · rw [List.orderedInsert_cons, if_pos hr]; rfl
        · obtain ⟨A, B, rfl, h1, h2, h3⟩ := ih hs.2
          refine ⟨a :: A, B, rfl, fun b hb => ?_, h2, ?_⟩
          · rcases List.mem_cons.1 hb with rfl | hb
            · simpa using hr
            · exact h1 b hb
          · rw [List.orderedInsert_cons, if_neg hr, h3]; rfl
    obtain ⟨A, B, rfl, h1, h2, h3⟩ := key
    rw [h3, List.flatMap_append, List.flatMap_append, List.flatMap_cons]
    refine insert_block r ka kb f (blk f) (hk f) hrefl _ _ ?_ ?_
    · intro x hx
      rw [List.mem_flatMap] at hx
      obtain ⟨a, ha, hx⟩ := hx
      rw [hk a x hx]; exact h1 a ha
    · intro x hx
      rw [List.mem_flatMap] at hx
      obtain ⟨a, ha, hx⟩ := hx
      rw [hk a x hx]; exact h2 a ha

theorem before_refl (k : Int × Id) : before k k = true := by simp [before]

theorem before_trans (a b c : Int × Id) (h1 : before a b = true) (h2 : before b c = true) : before a c = true := by
  simp only [before, Bool.or_eq_true, decide_eq_true_eq, Bool.and_eq_true, beq_iff_eq] at *
  rcases h1 with h1 | ⟨h1, h1'⟩ <;> rcases h2 with h2 | ⟨h2, h2'⟩
  · left; omega
  · left; omega
  · left; omega
  · right; exact ⟨h1.trans h2, List.le_trans h2' h1'⟩

theorem before_total (a b : Int × Id) : before a b = true ∨ before b a = true := by
  simp only [before, Bool.or_eq_true, decide_eq_true_eq, Bool.and_eq_true, beq_iff_eq]
  rcases lt_trichotomy a.1 b.1 with h | h | h
  · right; left; exact h
  · rcases List.le_total (a.2.map Char.toNat) (b.2.map Char.toNat) with h' | h'
    · right; right; exact ⟨h.symm, h'⟩
    · left; right; exact ⟨h, h'⟩
  · left; left; exact h

/-- **C63, the profile.**  The tool reads any profile that VPREC writes, for any number of functions
and arguments: it keeps the calls selected by the command line, most called first, each with its
own arguments, inputs before outputs, in the order of the profile. -/
theorem C63_profile (list : List Id) (parent name : Fn → Id) (fs : List Fn) (hr : ∀ f ∈ fs, Readable f)
    (hc : ∀ f ∈ fs, CallId f.info.id (parent f) (name f)) :
    ∃ gs : List Fn, gs.Perm (fs.filter fun f => Selected list (parent f) (name f)) ∧ gs.Pairwise (fun f g => g.nCalls ≤ f.nCalls) ∧
      getProfile list (write fs) = some ⟨gs.map rowOf, gs.flatMap argRowsOf⟩ := by
  let sel := fs.filter fun f => Selected list (parent f) (name f)
  let key : Fn → Int × Id := fun f => (f.nCalls, f.info.id)
  refine ⟨sel.insertionSort fun f g => before (key f) (key g), List.perm_insertionSort _ _, ?_, ?_⟩
  · have : IsTrans Fn (fun f g => before (key f) (key g) = true) := ⟨fun a b c => before_trans _ _ _⟩
    have : Std.Total (fun f g : Fn => before (key f) (key g) = true) := ⟨fun a b => before_total _ _⟩
    refine (List.pairwise_insertionSort (fun f g : Fn => before (key f) (key g) = true) sel).imp ?_
    intro f g h
    simp only [before, Bool.or_eq_true, decide_eq_true_eq, Bool.and_eq_true, beq_iff_eq, key] at h
    omega
  · have hlen : fs.length ≤ (readlines (write fs)).length := by
      have : ∀ gs : List Fn, (∀ f ∈ gs, Readable f) → gs.length ≤ (readlines (write gs)).length := by
        intro gs
        induction gs with
        | nil => intro _; simp
        | cons f gs ih =>
          intro h
          have hw : write (f :: gs) = writeFn f ++ write gs := by simp [write]
          rw [hw, readlines_fn f (h f (by simp))]
          have := ih (fun g hg => h g (by simp [hg]))
          simp only [List.length_cons, List.length_append]; omega
      exact this fs hr
    unfold getProfile
    simp only []
    rw [readFns_write list parent name fs _ hlen hr hc]
    simp only [Option.bind_eq_bind, Option.bind_some]
    have e1 : (sel.map rowOf).insertionSort (fun a b => before a.key b.key = true) =
        (sel.insertionSort fun f g => before (key f) (key g) = true).map rowOf := by
      have := sort_blocks before key OpRow.key (fun f => [rowOf f]) (fun f x hx => by
        simp only [List.mem_singleton] at hx; subst hx; rfl) before_refl before_trans before_total sel
      rw [List.map_eq_flatMap, List.map_eq_flatMap]; exact this
    have e2 : (sel.flatMap argRowsOf).insertionSort (fun a b => before a.key b.key = true) =
        (sel.insertionSort fun f g => before (key f) (key g) = true).flatMap argRowsOf :=
      sort_blocks before key ArgRow.key argRowsOf (fun f x hx => by
        simp only [argRowsOf, List.mem_append, List.mem_map] at hx
        rcases hx with ⟨d, -, rfl⟩ | ⟨d, -, rfl⟩ <;> rfl) before_refl before_trans before_total sel
    rw [e1, e2]
    rfl

/-- **C63, the configuration.**  Each function is written with as many argument rows as it has,
which are its own when the frame of arguments lists them function by function, as `getProfile`
does. -/
theorem C63_save (bs : List (OpRow × List ArgRow)) (h : ∀ b ∈ bs, (b.2.length : Int) = b.1.ninputs + b.1.noutputs) :
    save (bs.map Prod.fst) (bs.flatMap Prod.snd) = some (bs.flatMap fun b => saveOp b.1 ++ b.2.flatMap saveArg) := by
  induction bs with
  | nil => rfl
  | cons b bs ih =>
    have hb := h b (by simp)
    have e : (b.1.ninputs + b.1.noutputs).toNat = b.2.length := by omega
    rw [List.map_cons, List.flatMap_cons, save, e]
    simp only [List.length_append, List.drop_left, List.take_left]
    rw [if_neg (by omega), ih (fun c hc => h c (by simp [hc]))]
    simp

/-- The file of a profile with two calls of different weight. -/
def exProfile : List Fn :=
  [⟨⟨"a.c//main/3/0".toList, false, false, false, true⟩, 52, 11, 23, 8, some [], some [], 1⟩,
   ⟨⟨"a.c/main/f/12/1".toList, false, false, true, true⟩, 52, 11, 23, 8, some [⟨"x".toList, 1, -3, 4, 11, 52⟩], some [], 3⟩]

example : getProfile [] (write exProfile) = some ⟨[rowOf exProfile[1], rowOf exProfile[0]], argRowsOf exProfile[1]⟩ := by decide +kernel

/-- Only the calls of `f`; then only the calls made by `main`. -/
example : (getProfile ["f".toList] (write exProfile)).map (·.ops.length) = some 1 ∧
    getProfile ["main".toList] (write exProfile) = getProfile [] (write exProfile) := by decide +kernel

example : CallId "a.c//main/3/0".toList [] "main".toList ∧ CallId "a.c/main/f/12/1".toList "main".toList "f".toList :=
  ⟨⟨⟨"a.c".toList, 3, 0, by decide⟩, by decide, by decide⟩, ⟨⟨"a.c".toList, 12, 1, by decide⟩, by decide, by decide⟩⟩

/-- A name with a space cannot be read. -/
example : getProfile [] (write [⟨⟨"a.c//main/3/0".toList, false, false, false, true⟩, 52, 11, 23, 8,
    some [⟨"x y".toList, 1, -3, 4, 11, 52⟩], some [], 1⟩]) = none := by decide +kernel

end Verif.Precexp
