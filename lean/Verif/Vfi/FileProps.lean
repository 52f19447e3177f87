import Verif.Vfi.File
import Verif.Vfi.Props

/-! # C12: the profile file round trip -/

namespace Verif.Vfi
open Verif Verif.Vprec.Config

/-! ## Numbers -/

theorem digits_append (l : List Char) : ∀ (acc : Nat) (rest : List Char), (∀ c ∈ l, c.isDigit = true) →
    (∀ c, rest.head? = some c → c.isDigit = false) → digits (l ++ rest) acc = Nat.ofDigitChars 10 l acc := by
  induction l with
  | nil =>
    intro acc rest _ hr
    rcases rest with _ | ⟨c, cs⟩
    · simp [digits]
    · simp [digits, hr c rfl]
  | cons c cs ih =>
    intro acc rest hl hr
    have hc := hl c (by simp)
    rw [List.cons_append, digits, if_pos hc, Nat.ofDigitChars_cons, ih _ _ (fun d hd => hl d (by simp [hd])) hr]
    congr 1
    rw [Nat.mul_comm]; rfl

theorem isDigit_not (c : Char) (h : c.isDigit = true) : c ≠ '\t' ∧ c ≠ '\n' ∧ c ≠ '-' ∧ c ≠ '+' ∧ isSpace c = false := by
  refine ⟨?_, ?_, ?_, ?_, ?_⟩
  · rintro rfl; exact absurd h (by decide)
  · rintro rfl; exact absurd h (by decide)
  · rintro rfl; exact absurd h (by decide)
  · rintro rfl; exact absurd h (by decide)
  · unfold isSpace
    simp only [decide_eq_false_iff_not, not_or]
    refine ⟨?_, ?_, ?_, ?_, ?_, ?_⟩ <;> rintro rfl <;> exact absurd h (by decide)

theorem toDigits_spec (n : Nat) : ∃ c cs, Nat.toDigits 10 n = c :: cs ∧ c.isDigit = true ∧ ∀ d ∈ cs, d.isDigit = true := by
  have h1 : ∀ c ∈ Nat.toDigits 10 n, c.isDigit = true := fun c hc => Nat.isDigit_of_mem_toDigits (by norm_num) (by norm_num) hc
  rcases h : Nat.toDigits 10 n with _ | ⟨c, cs⟩
  · exact absurd h Nat.toDigits_ne_nil
  · rw [h] at h1
    exact ⟨c, cs, rfl, h1 c (by simp), fun d hd => h1 d (by simp [hd])⟩

theorem strtol_dec64 (n : Int) (h : -(2 ^ 63) ≤ n ∧ n < 2 ^ 63) (rest : List Char)
    (hr : ∀ c, rest.head? = some c → c.isDigit = false) : strtol (dec n ++ rest) = some n := by
  obtain ⟨c, cs, e, hc, hcs⟩ := toDigits_spec n.natAbs
  obtain ⟨-, -, c3, c4, c5⟩ := isDigit_not c hc
  have hd : digits (c :: cs ++ rest) 0 = n.natAbs := by
    rw [digits_append _ _ _ (by
      intro d hd
      rcases List.mem_cons.1 hd with rfl | hd
      · exact hc
      · exact hcs d hd) hr, ← e]
    exact Nat.ofDigitChars_ten_toDigits
  unfold strtol dec
  rw [e]
  split
  · rename_i hn
    have : List.dropWhile isSpace ('-' :: c :: cs ++ rest) = '-' :: c :: cs ++ rest := by
      rw [List.cons_append, List.dropWhile_cons_of_neg (by decide)]
    rw [this]
    simp only [List.cons_append] at hd ⊢
    rw [hd, if_pos (by omega)]
    congr 1; omega
  · rename_i hn
    have : List.dropWhile isSpace (c :: cs ++ rest) = c :: cs ++ rest := by
      rw [List.cons_append, List.dropWhile_cons_of_neg (by simp [c5])]
    rw [this]
    simp only [List.cons_append] at hd ⊢
    split
    · rename_i t heq; simp only [List.cons.injEq] at heq; exact absurd heq.1 c3
    · rename_i t heq; simp only [List.cons.injEq] at heq; exact absurd heq.1 c4
    · rw [hd, if_pos (by omega)]
      congr 1; omega

theorem strtol_dec (n : Int) (h : -(2 ^ 31) ≤ n ∧ n < 2 ^ 31) (rest : List Char)
    (hr : ∀ c, rest.head? = some c → c.isDigit = false) : strtol (dec n ++ rest) = some n :=
  strtol_dec64 n (by omega) rest hr

/-- A field: non-empty, without separators, of bounded length. -/
structure Field (n : Nat) (x : List Char) : Prop where
  ne : x ≠ []
  tab : '\t' ∉ x
  nl : '\n' ∉ x
  len : x.length ≤ n

theorem field_dec (n : Int) (h : -(2 ^ 31) ≤ n ∧ n < 2 ^ 31) : Field 11 (dec n) := by
  obtain ⟨c, cs, e, hc, hcs⟩ := toDigits_spec n.natAbs
  have hdig : ∀ d ∈ Nat.toDigits 10 n.natAbs, d ≠ '\t' ∧ d ≠ '\n' := by
    rw [e]
    intro d hd
    rcases List.mem_cons.1 hd with rfl | hd
    · exact ⟨(isDigit_not _ hc).1, (isDigit_not _ hc).2.1⟩
    · exact ⟨(isDigit_not _ (hcs d hd)).1, (isDigit_not _ (hcs d hd)).2.1⟩
  have hlen : (Nat.toDigits 10 n.natAbs).length ≤ 10 := by
    rw [Nat.length_toDigits_le_iff (by norm_num) (by norm_num)]; omega
  unfold dec
  split
  · refine ⟨by simp, ?_, ?_, by simp only [List.length_cons]; omega⟩
    · simp only [List.mem_cons, not_or]; exact ⟨by decide, fun h => (hdig _ h).1 rfl⟩
    · simp only [List.mem_cons, not_or]; exact ⟨by decide, fun h => (hdig _ h).2 rfl⟩
  · exact ⟨by rw [e]; simp, fun h => (hdig _ h).1 rfl, fun h => (hdig _ h).2 rfl, by omega⟩

theorem field_decB (b : Bool) : Field 11 (decB b) := field_dec _ (by split <;> norm_num)

/-! ## Lines -/

theorem fgets_line (x rest : List Char) : ∀ n, '\n' ∉ x → x.length < n →
    fgets n (x ++ '\n' :: rest) = (x ++ ['\n'], rest) := by
  induction x with
  | nil =>
    intro n _ hn
    rcases n with _ | n
    · simp at hn
    · simp [fgets]
  | cons c cs ih =>
    intro n hx hn
    rcases n with _ | n
    · simp at hn
    · have h1 : c ≠ '\n' := by rintro rfl; simp at hx
      have h2 : '\n' ∉ cs := fun h => hx (by simp [h])
      simp only [List.cons_append, fgets, h1, if_false]
      rw [ih n h2 (by simp only [List.length_cons] at hn; omega)]

theorem tok_cur (x : List Char) : ∀ (cur rest : List Char), '\t' ∉ x → tok cur (x ++ rest) = tok (cur ++ x) rest := by
  induction x with
  | nil => intro cur rest _; simp
  | cons c cs ih =>
    intro cur rest hx
    have h1 : c ≠ '\t' := by rintro rfl; simp at hx
    have h2 : '\t' ∉ cs := fun h => hx (by simp [h])
    rw [List.cons_append, tok, if_neg h1, ih _ _ h2]; simp

/-- Tokens of a line of fields. -/
def lastNl : List (List Char) → List (List Char)
  | [] => []
  | [x] => [x ++ ['\n']]
  | x :: y :: xs => x :: lastNl (y :: xs)

theorem tok_tabbed (xs : List (List Char)) (hne : xs ≠ []) (h : ∀ x ∈ xs, x ≠ [] ∧ '\t' ∉ x) : tok [] (tabbed xs) = lastNl xs := by
  induction xs with
  | nil => exact absurd rfl hne
  | cons x xs ih =>
    obtain ⟨h1, h2⟩ := h x (by simp)
    rcases xs with _ | ⟨y, xs⟩
    · rw [tabbed, lastNl]
      have : tok [] (x ++ ['\n']) = tok [] ((x ++ ['\n']) ++ []) := by simp
      rw [this, tok_cur _ _ _ (by simp [h2])]
      simp [tok]
    · rw [tabbed, lastNl, tok_cur _ _ _ h2, tok, if_pos rfl, if_neg (by simpa using h1)]
      rw [ih (by simp) (fun z hz => h z (by simp [hz]))]
      simp

/-- Length of a line without its newline. -/
def lineLen (xs : List (List Char)) : Nat := (xs.map fun x => x.length + 1).sum

theorem tabbed_split (xs : List (List Char)) (h : ∀ x ∈ xs, '\n' ∉ x) :
    ∃ l, tabbed xs = l ++ ['\n'] ∧ '\n' ∉ l ∧ l.length ≤ lineLen xs := by
  induction xs with
  | nil => exact ⟨[], rfl, by simp, by simp⟩
  | cons x xs ih =>
    rcases xs with _ | ⟨y, xs⟩
    · exact ⟨x, rfl, h x (by simp), by simp [lineLen]⟩
    · obtain ⟨l, h1, h2, h3⟩ := ih (fun z hz => h z (by simp [hz]))
      refine ⟨x ++ '\t' :: l, ?_, ?_, ?_⟩
      · rw [tabbed, h1]; simp
      · simp only [List.mem_append, List.mem_cons, not_or]
        exact ⟨h x (by simp), by decide, h2⟩
      · simp only [List.length_append, List.length_cons]
        have : lineLen (x :: y :: xs) = x.length + 1 + lineLen (y :: xs) := by simp [lineLen]
        omega

theorem lastNl_length (xs : List (List Char)) : (lastNl xs).length = xs.length := by
  induction xs with
  | nil => rfl
  | cons x xs ih =>
    rcases xs with _ | ⟨y, xs⟩
    · rfl
    · simp only [lastNl, List.length_cons, ih]

theorem lastNl_len (xs : List (List Char)) (n : Nat) (h : ∀ x ∈ xs, x.length ≤ n) (hl : ∀ x, xs.getLast? = some x → x.length < n) :
    ∀ t ∈ lastNl xs, t.length ≤ n := by
  induction xs with
  | nil => intro t ht; simp [lastNl] at ht
  | cons x xs ih =>
    rcases xs with _ | ⟨y, xs⟩
    · intro t ht
      simp only [lastNl, List.mem_singleton] at ht
      subst ht
      have := hl x rfl
      simp; omega
    · intro t ht
      rw [lastNl] at ht
      rcases List.mem_cons.1 ht with rfl | ht
      · exact h _ (by simp)
      · exact ih (fun z hz => h z (by simp [hz])) (fun z hz => hl z (by simpa using hz)) t ht

theorem scanLine_tabbed (cap : Nat) (garbage : List Char) (xs : List (List Char)) (rest : List Char) (hcap : xs.length ≤ cap)
    (hne : xs ≠ []) (h : ∀ x ∈ xs, Field 255 x) (hl : ∀ x, xs.getLast? = some x → x.length < 255) (hlen : lineLen xs < 2047) :
    scanLine cap garbage (tabbed xs ++ rest) = .ok (lastNl xs, rest) := by
  obtain ⟨l, h1, h2, h3⟩ := tabbed_split xs (fun x hx => (h x hx).nl)
  have hf : fgets 2047 (tabbed xs ++ rest) = (tabbed xs, rest) := by
    rw [h1, List.append_assoc, List.singleton_append, fgets_line _ _ _ h2 (by omega)]
  have hnn : tabbed xs ++ rest ≠ [] := by rw [h1]; simp
  unfold scanLine
  simp only [hnn, if_false, hf]
  rw [tok_tabbed xs hne (fun x hx => ⟨(h x hx).ne, (h x hx).tab⟩)]
  rw [if_pos]
  refine ⟨by rw [lastNl_length]; omega, lastNl_len xs 255 (fun x hx => (h x hx).len) hl⟩

/-! ## Records -/

def IsInt (n : Int) : Prop := -(2 ^ 31) ≤ n ∧ n < 2 ^ 31

instance (n : Int) : Decidable (IsInt n) := inferInstanceAs (Decidable (_ ∧ _))

/-- Argument records whose fields fit the C types, with a usable identifier. -/
structure ArgData.Valid (d : ArgData) : Prop where
  id : Field 127 d.id
  ty : -(2 ^ 15) ≤ d.ty ∧ d.ty < 2 ^ 15
  mn : IsInt d.minR
  mx : IsInt d.maxR
  el : IsInt d.expLen
  ml : IsInt d.manLen

/-- Records whose fields fit the C types, with a usable identifier. -/
structure Fn.Valid (f : Fn) : Prop where
  id : Field 255 f.info.id
  p64 : IsInt f.prec64
  r64 : IsInt f.range64
  p32 : IsInt f.prec32
  r32 : IsInt f.range32
  nc : IsInt f.nCalls
  ins : ∀ d ∈ f.inArgs.getD [], d.Valid
  outs : ∀ d ∈ f.outArgs.getD [], d.Valid
  nin : (f.inArgs.getD []).length < 2 ^ 31
  nout : (f.outArgs.getD []).length < 2 ^ 31

/-- The record with NULL argument arrays replaced by empty ones. -/
def Fn.norm (f : Fn) : Fn := { f with inArgs := some (f.inArgs.getD []), outArgs := some (f.outArgs.getD []) }

theorem scanInt_dec (n : Int) (h : IsInt n) (rest : List Char) (hr : ∀ c, rest.head? = some c → c.isDigit = false) :
    scanInt (dec n ++ rest) = .ok n := by
  unfold scanInt; rw [strtol_dec n h rest hr]

theorem scanI_dec (n : Int) (h : IsInt n) : scanI (dec n) = .ok n := by
  have := scanInt_dec n h [] (by simp)
  rw [List.append_nil] at this
  unfold scanI
  rw [this]
  unfold IsInt at h
  simp only [Outcome.bind_ok, Outcome.pure_eq, toInt]
  congr 1; omega

theorem scanI_dec_nl (n : Int) (h : IsInt n) : scanI (dec n ++ ['\n']) = .ok n := by
  have := scanInt_dec n h ['\n'] (by intro c hc; simp at hc; subst hc; decide)
  unfold scanI
  rw [this]
  unfold IsInt at h
  simp only [Outcome.bind_ok, Outcome.pure_eq, toInt]
  congr 1; omega

theorem scanB_decB (b : Bool) : scanB (decB b) = .ok b := by
  have hi : IsInt (if b then 1 else 0) := by unfold IsInt; split <;> norm_num
  have := scanInt_dec _ hi [] (by simp)
  rw [List.append_nil] at this
  unfold scanB decB
  rw [this]
  cases b <;> rfl

theorem Field.mono {n m : Nat} {x : List Char} (h : Field n x) (hnm : n ≤ m) : Field m x :=
  ⟨h.ne, h.tab, h.nl, le_trans h.len hnm⟩

theorem scanHeader_write (garbage rest : List Char) (f : Fn) (h : f.Valid) :
    scanHeader garbage (writeHeader f ++ rest) =
      .ok (some ({ f with inArgs := none, outArgs := none }, ((f.inArgs.getD []).length : Int), ((f.outArgs.getD []).length : Int)), rest) := by
  have hin : IsInt ((f.inArgs.getD []).length : Int) := by have := h.nin; unfold IsInt; omega
  have hout : IsInt ((f.outArgs.getD []).length : Int) := by have := h.nout; unfold IsInt; omega
  have L : ∀ n, IsInt n → (dec n).length ≤ 11 := fun n hn => (field_dec n hn).len
  have LB : ∀ b, (decB b).length ≤ 11 := fun b => (field_decB b).len
  unfold scanHeader writeHeader
  rw [scanLine_tabbed 12 garbage _ rest le_rfl (by simp) (by
    intro x hx
    simp only [List.mem_cons, List.not_mem_nil, or_false] at hx
    rcases hx with rfl | rfl | rfl | rfl | rfl | rfl | rfl | rfl | rfl | rfl | rfl | rfl
    · exact h.id
    all_goals first
      | exact (field_decB _).mono (by norm_num)
      | exact (field_dec _ h.p64).mono (by norm_num)
      | exact (field_dec _ h.r64).mono (by norm_num)
      | exact (field_dec _ h.p32).mono (by norm_num)
      | exact (field_dec _ h.r32).mono (by norm_num)
      | exact (field_dec _ hin).mono (by norm_num)
      | exact (field_dec _ hout).mono (by norm_num)
      | exact (field_dec _ h.nc).mono (by norm_num)) (by
    intro x hx
    simp at hx
    subst hx
    have := L _ h.nc
    omega) (by
    have := h.id.len
    have a1 := LB f.info.isLib; have a2 := LB f.info.isIntr; have a3 := LB f.info.useFloat; have a4 := LB f.info.useDouble
    have a5 := L _ h.p64; have a6 := L _ h.r64; have a7 := L _ h.p32; have a8 := L _ h.r32
    have a9 := L _ hin; have a10 := L _ hout; have a11 := L _ h.nc
    simp only [lineLen, List.map_cons, List.map_nil, List.sum_cons, List.sum_nil]
    omega)]
  simp only [Outcome.bind_ok, lastNl, scanB_decB, scanI_dec _ h.p64, scanI_dec _ h.r64, scanI_dec _ h.p32,
    scanI_dec _ h.r32, scanI_dec _ hin, scanI_dec _ hout, scanI_dec_nl _ h.nc, Outcome.pure_eq]

theorem scanArg_write (garbage rest : List Char) (tag : String) (htag : Field 255 tag.toList) (htl : tag.toList.length ≤ 10) (d : ArgData) (h : d.Valid) :
    scanArg garbage (writeArg tag d ++ rest) = .ok (d, rest) := by
  have hty : IsInt d.ty := by have := h.ty; unfold IsInt; omega
  have L : ∀ n, IsInt n → (dec n).length ≤ 11 := fun n hn => (field_dec n hn).len
  unfold scanArg writeArg
  rw [scanLine_tabbed 7 garbage _ rest le_rfl (by simp) (by
    intro x hx
    simp only [List.mem_cons, List.not_mem_nil, or_false] at hx
    rcases hx with rfl | rfl | rfl | rfl | rfl | rfl | rfl
    · exact htag
    · exact h.id.mono (by norm_num)
    all_goals first
      | exact (field_dec _ hty).mono (by norm_num)
      | exact (field_dec _ h.mn).mono (by norm_num)
      | exact (field_dec _ h.mx).mono (by norm_num)
      | exact (field_dec _ h.el).mono (by norm_num)
      | exact (field_dec _ h.ml).mono (by norm_num)) (by
    intro x hx
    simp at hx
    subst hx
    have := L _ h.mx
    omega) (by
    have := h.id.len
    have a5 := L _ hty; have a6 := L _ h.mn; have a7 := L _ h.mx; have a8 := L _ h.el
    have a9 := L _ h.ml
    simp only [lineLen, List.map_cons, List.map_nil, List.sum_cons, List.sum_nil]
    omega)]
  have ht := scanInt_dec _ hty [] (by simp)
  rw [List.append_nil] at ht
  have hs : toShort d.ty = d.ty := by have := h.ty; unfold toShort; omega
  simp only [Outcome.bind_ok, lastNl, if_pos h.id.len, ht, scanI_dec _ h.ml, scanI_dec _ h.el, scanI_dec _ h.mn,
    scanI_dec_nl _ h.mx, Outcome.pure_eq, hs]

theorem scanArgs_write (garbage : List Char) (tag : String) (htag : Field 255 tag.toList) (htl : tag.toList.length ≤ 10) (ds : List ArgData) :
    ∀ rest, (∀ d ∈ ds, d.Valid) → scanArgs garbage ds.length (ds.flatMap (writeArg tag) ++ rest) = .ok (ds, rest) := by
  induction ds with
  | nil => intro rest _; rfl
  | cons d ds ih =>
    intro rest h
    simp only [List.length_cons, scanArgs, List.flatMap_cons, List.append_assoc]
    rw [scanArg_write garbage _ tag htag htl d (h d (by simp))]
    simp only [Outcome.bind_ok]
    rw [ih rest (fun e he => h e (by simp [he]))]
    rfl

/-- **C12.**  Writing any table of valid records and reading the file back gives the same
records in the same order, whatever number of them.  Missing from the full statement: the buffer
tokenised at the end of the file is uninitialised, its contents `garbage` is assumed not to look
like a record (`C12_end_of_file_undefined`); identifiers that are empty or longer than 255
characters (`C12_long_identifier`, `C12_empty_identifier`); NULL argument arrays come back as empty
ones (`C12_null_arguments`). -/
theorem C12_round_trip_partial (garbage : List Char) (hg1 : (tok [] garbage).length < 12) (hg2 : ∀ t ∈ tok [] garbage, t.length ≤ 255)
    (fs : List Fn) (h : ∀ f ∈ fs, f.Valid) :
    readMap garbage (fs.length + 1) (write fs) = .ok (some (fs.map Fn.norm)) := by
  induction fs with
  | nil =>
    simp only [write, List.flatMap_nil, readMap, scanHeader, scanLine, if_true]
    rw [if_pos ⟨by omega, hg2⟩]
    simp only [Outcome.bind_ok]
    generalize tok [] garbage = ts at *
    split
    · rename_i h; simp at hg1
    · rfl
  | cons f fs ih =>
    have hf := h f (by simp)
    have ih := ih (fun g hg => h g (by simp [hg]))
    rw [List.length_cons, readMap]
    have hw : write (f :: fs) = writeHeader f ++ ((f.inArgs.getD []).flatMap (writeArg "input:") ++
        ((f.outArgs.getD []).flatMap (writeArg "output:") ++ write fs)) := by
      simp [write, writeFn, List.append_assoc]
    rw [hw, scanHeader_write garbage _ f hf]
    simp only [Outcome.bind_ok, Int.toNat_natCast]
    rw [scanArgs_write garbage "input:" ⟨by decide, by decide, by decide, by decide⟩ (by decide) _ _ hf.ins]
    simp only [Outcome.bind_ok]
    rw [scanArgs_write garbage "output:" ⟨by decide, by decide, by decide, by decide⟩ (by decide) _ _ hf.outs]
    simp only [Outcome.bind_ok]
    rw [ih]
    rfl

/-- What profile the records amount to: the table maps the hash of each identifier to its record
(for records with distinct hashes, `Verif.Hash.C33_insert_get_partial`). -/
def toProfile (fs : List Fn) : Nat → Option Fn := fun k => fs.find? (fun f => hash f.info.id == k)

/-- **C12 with C11**: the operation precisions prescribed after reading the file are those of the
run that wrote it. -/
theorem C12_prescribed_partial (garbage : List Char) (hg1 : (tok [] garbage).length < 12) (hg2 : ∀ t ∈ tok [] garbage, t.length ≤ 255)
    (fs : List Fn) (h : ∀ f ∈ fs, f.Valid) (k : Nat) : ∃ gs, readMap garbage (fs.length + 1) (write fs) = .ok (some gs) ∧
      prescribed (toProfile gs) k = prescribed (toProfile fs) k ∧ calls (toProfile gs) k = calls (toProfile fs) k := by
  refine ⟨_, C12_round_trip_partial garbage hg1 hg2 fs h, ?_⟩
  have : toProfile (fs.map Fn.norm) k = (toProfile fs k).map Fn.norm := by
    unfold toProfile
    rw [List.find?_map]; rfl
  unfold prescribed calls
  rw [this]
  rcases toProfile fs k with _ | f <;> exact ⟨rfl, rfl⟩

def exFn : Fn :=
  ⟨⟨"a.c/main/f/12/3".toList, false, false, false, true⟩, 20, 11, 23, 8,
   some [⟨"x".toList, 1, -3, 17, 11, 52⟩], none, 42⟩

example : exFn.Valid where
  id := ⟨by decide, by decide, by decide, by decide⟩
  p64 := by decide
  r64 := by decide
  p32 := by decide
  r32 := by decide
  nc := by decide
  ins := fun d hd => by
    obtain rfl : d = ⟨"x".toList, 1, -3, 17, 11, 52⟩ := List.mem_singleton.1 hd
    exact ⟨⟨by decide, by decide, by decide, by decide⟩, by decide, by decide, by decide, by decide, by decide⟩
  outs := fun d hd => absurd hd List.not_mem_nil
  nin := Nat.lt_of_le_of_lt (Nat.le_refl 1) (by norm_num)
  nout := Nat.lt_of_le_of_lt (Nat.le_refl 0) (by norm_num)

example : readMap [] 2 (write [exFn]) = .ok (some [exFn.norm]) := by decide +kernel

/-- **C12, negation: end of file.**  Every reading of a file goes through the uninitialised
buffer.  If it happens to hold a record, an entry never written appears, and the loop never
ends. -/
theorem C12_end_of_file_undefined : ∃ garbage, ∀ fuel, readMap garbage fuel (write []) = .ok none := by
  refine ⟨"a\t0\t0\t0\t1\t52\t11\t23\t8\t0\t0\t1\n".toList, ?_⟩
  have hs : ∃ f, scanHeader "a\t0\t0\t0\t1\t52\t11\t23\t8\t0\t0\t1\n".toList [] = .ok (some (f, 0, 0), []) :=
    ⟨⟨⟨"a".toList, false, false, false, true⟩, 52, 11, 23, 8, none, none, 1⟩, by decide +kernel⟩
  obtain ⟨f, hf⟩ := hs
  intro fuel
  induction fuel with
  | zero => rfl
  | succ n ih =>
    rw [show write [] = [] from rfl] at ih ⊢
    rw [readMap, hf]
    simp only [Outcome.bind_ok, Int.toNat_zero, scanArgs]
    rw [ih]; rfl

/-- **C12, negation: long identifiers.**  An identifier of 256 to 511 characters is accepted by
the record (512 bytes) and written, but overflows the token buffer when read. -/
theorem C12_long_identifier (garbage : List Char) (fuel : Nat) (f : Fn) (fs : List Fn) (h1 : 255 < f.info.id.length)
    (h2 : f.info.id.length ≤ 511) (h3 : '\t' ∉ f.info.id ∧ '\n' ∉ f.info.id) :
    readMap garbage (fuel + 1) (write (f :: fs)) = .ub := by
  have hw : ∃ rest, write (f :: fs) = f.info.id ++ '\t' :: rest := by
    simp only [write, List.flatMap_cons, writeFn, writeHeader, tabbed, List.append_assoc, List.cons_append]
    exact ⟨_, rfl⟩
  obtain ⟨rest, hw⟩ := hw
  have hfg : ∀ (x : List Char) (n : Nat), '\n' ∉ x → x.length < n → ∃ r, (fgets n (x ++ '\t' :: rest)).1 = x ++ '\t' :: r := by
    intro x
    induction x with
    | nil =>
      intro n _ hn
      rcases n with _ | n
      · simp at hn
      · exact ⟨_, by simp only [List.nil_append, fgets]; rw [if_neg (by decide)]⟩
    | cons c cs ih =>
      intro n hx hn
      rcases n with _ | n
      · simp at hn
      · have q1 : c ≠ '\n' := by rintro rfl; simp at hx
        have q2 : '\n' ∉ cs := fun h => hx (by simp [h])
        obtain ⟨r, hr⟩ := ih n q2 (by simp only [List.length_cons] at hn; omega)
        exact ⟨r, by simp only [List.cons_append, fgets, q1, if_false, hr]⟩
  obtain ⟨r, hr⟩ := hfg f.info.id 2047 h3.2 (by omega)
  rw [readMap, hw]
  unfold scanHeader scanLine
  simp only [List.append_eq_nil_iff, List.cons_ne_nil, and_false, if_false]
  rw [hr, tok_cur _ _ _ h3.1, List.nil_append, tok, if_pos rfl, if_neg (show f.info.id ≠ [] by intro e; rw [e] at h1; simp at h1), if_neg]
  · rfl
  · rintro ⟨-, hall⟩
    have := hall f.info.id (by simp)
    omega

/-- **C12, negation: empty argument names.**  The empty field is skipped and the line rejected. -/
theorem C12_empty_identifier : ∃ f : Fn, readMap [] 2 (write [f]) = .exit :=
  ⟨{ exFn with inArgs := some [⟨[], 1, -3, 17, 11, 52⟩] }, by decide +kernel⟩

/-- **C12, negation: calls that did not return.**  A record written before the first exit of
its function (NULL output array) comes back with an empty array; the exit hook then uses record 0
of that array, out of bounds, instead of allocating it. -/
theorem C12_null_arguments : exFn.outArgs = none ∧ readMap [] 2 (write [exFn]) = .ok (some [exFn.norm]) ∧
    (∀ sem cfg mf a, withArgs sem cfg false mf [a] exFn.norm.outArgs = .ub) ∧
    (withArgs .strict Vprec.Config.init false false [⟨.double, "r".toList, 1, some [⟨false, 1023, 0⟩]⟩] exFn.outArgs
      = .ok ([⟨.double, "r".toList, 1, some [⟨false, 1023, 0⟩]⟩], some [⟨"r".toList, 1, 1, 1, 11, 52⟩])) := by
  refine ⟨rfl, by decide +kernel, fun sem cfg mf a => rfl, by decide +kernel⟩

end Verif.Vfi
