import Verif.Float.Conv
import Verif.Ieee.Debug
import Verif.Ieee.PrintProps
import Verif.Stdlib.LoggerProps

/-! # Property C95: the debug output of the IEEE backend -/

namespace Verif.Ieee
open Verif Verif.Fp
open Verif.Stdlib (CStr)

/-! ## What is written -/

/-- The text of a number: decimal, or its bits in the format of its type. -/
def numText (g : Bits → CStr) (fl : DebugFlags) (x : Datum) : CStr :=
  if fl.debug then g x.promoted
  else if x.double then printBin b64 64 fl.subnormalNormalized x.bits else printBin b32 32 fl.subnormalNormalized x.bits

/-- The text of an operation: a line, `nl` being written after each number of it. -/
def body (num : Datum → CStr) (nl : CStr) : Shown → CStr
  | .arith op a b c =>
    num a ++ " ".toList ++ op ++ " ".toList ++ nl ++ num b ++ " -> ".toList ++ nl ++ num c ++ "\n".toList ++ nl
  | .cmp op a b c =>
    num a ++ " [".toList ++ op ++ "] ".toList ++ nl ++ num b ++ " -> ".toList ++
      (if c then "true".toList else "false".toList) ++ "\n".toList ++ nl
  | .cast op a b => num a ++ " ".toList ++ op ++ " -> ".toList ++ nl ++ num b ++ "\n".toList ++ nl
  | .fma a b c d =>
    num a ++ " * ".toList ++ nl ++ num b ++ " + ".toList ++ nl ++ num c ++ " -> ".toList ++ nl ++ num d ++ "\n".toList ++ nl

/-- The text of the header. -/
def headerLine (fl : DebugFlags) (v : Logger.Vars) : CStr :=
  if fl.noBackendName = false ∧ v.enabled ∧ v.level.toNat ≤ Logger.Level.info.toNat then
    Logger.headerText v .info ++ (if fl.debug then "Decimal ".toList else "Binary ".toList) ++
      (if fl.printNewLine then "\n".toList else [])
  else []

theorem printBin_nan (F : Fmt) (hew : 2 ≤ F.ew) (W : Nat) (alt : Bool) (x : Bits) (h : x.isNaN F) :
    printBin F W alt x = "+nan".toList := by
  obtain ⟨he, hm⟩ := h
  have hne : x.exp ≠ 0 := by have := expInf_ge F hew; omega
  unfold printBin
  simp only
  rw [if_neg (fun h => hne h.1), if_neg (fun h => hm h.2), if_pos he]

/-- A `float` given as a `double` is printed as itself. -/
theorem print_promoted (alt : Bool) (x : Bits) (hx : x.WF b32) :
    printBin b32 32 alt (fconv b64 b32 (fconv b32 b64 x)) = printBin b32 32 alt x := by
  rw [fconv_trans wider32 b32 (by decide) x hx]
  by_cases hn : x.isNaN b32
  · rw [printBin_nan _ (by decide) _ _ x hn, fconv_nan _ _ _ hn]
    exact printBin_nan _ (by decide) _ _ _ (isNaN_nanBits b32)
  · rw [fconv_self b32 (by decide) x hx hn]

/-- The numbers of an operation. -/
def Shown.data : Shown → List Datum
  | .arith _ a b c => [a, b, c]
  | .cmp _ a b _ => [a, b]
  | .cast _ a b => [a, b]
  | .fma a b c d => [a, b, c, d]

/-- The number fits its type. -/
def Datum.WF (x : Datum) : Prop := x.bits.WF (if x.double then b64 else b32)

/-- The text `%g` or `%b` gives for a promoted number. -/
def shownNum (g : Bits → CStr) (fl : DebugFlags) (x : Datum) : CStr :=
  if fl.debug then g x.promoted
  else if x.double then printBin b64 64 fl.subnormalNormalized x.promoted
  else printBin b32 32 fl.subnormalNormalized (fconv b64 b32 x.promoted)

theorem shownNum_eq (g : Bits → CStr) (fl : DebugFlags) (x : Datum) (hx : x.WF) : shownNum g fl x = numText g fl x := by
  obtain ⟨d, b⟩ := x
  unfold shownNum numText Datum.promoted
  cases d
  · simp only [Bool.false_eq_true, if_false]
    rw [print_promoted _ b hx]
  · rfl

/-- The text a call of `debug_print` writes before the newline asked for. -/
def Writes (g : Bits → CStr) (fl : DebugFlags) (q : Datum × String × List Arg) (t : CStr) : Prop :=
  printf g (if fl.debug then q.2.1.toList else replaceG (fltFmt fl q.1) q.2.1.toList) q.2.2 = .ok t

theorem parts_write (g : Bits → CStr) (fl : DebugFlags) (l : List (Datum × String × List Arg)) (ts : List CStr)
    (h : List.Forall₂ (Writes g fl) l ts) (p : Logger.Proc) :
    ∃ p', printParts g fl l p = .ok p' ∧ ∀ s, Logger.text p' s = Logger.text p s ++
      (if .stderr = s then ts.flatMap (fun t => t ++ (if fl.printNewLine then "\n".toList else [])) else []) := by
  induction h generalizing p with
  | nil => exact ⟨p, rfl, fun s => by simp⟩
  | @cons q t l ts hq _ ih =>
    obtain ⟨x, fmt, args⟩ := q
    simp only [printParts, debugPrint]
    rw [show printf g (if fl.debug then fmt.toList else replaceG (fltFmt fl x) fmt.toList) args = .ok t from hq]
    simp only [Outcome.bind_ok]
    obtain ⟨p', h1, h2⟩ := ih (if fl.printNewLine then (p.write .stderr t).write .stderr "\n".toList else p.write .stderr t)
    refine ⟨p', h1, fun s => ?_⟩
    rw [h2 s, List.flatMap_cons]
    cases fl.printNewLine
    · simp only [Bool.false_eq_true, if_false, List.append_nil]
      rw [Logger.text_write, List.append_assoc]
      by_cases hs : Logger.Stream.stderr = s <;> simp [hs]
    · simp only [if_true]
      rw [Logger.text_write, Logger.text_write, List.append_assoc, List.append_assoc]
      by_cases hs : Logger.Stream.stderr = s <;> simp [hs]

/-- The texts of the parts of an operation. -/
def pieces (num : Datum → CStr) : Shown → List CStr
  | .arith op a b c => [num a ++ (" ".toList ++ (op ++ " ".toList)), num b ++ " -> ".toList, num c ++ "\n".toList]
  | .cmp op a b c =>
    [num a ++ (" [".toList ++ (op ++ "] ".toList)),
      num b ++ (" -> ".toList ++ ((if c then "true".toList else "false".toList) ++ "\n".toList))]
  | .cast op a b => [num a ++ (" ".toList ++ (op ++ " -> ".toList)), num b ++ "\n".toList]
  | .fma a b c d => [num a ++ " * ".toList, num b ++ " + ".toList, num c ++ " -> ".toList, num d ++ "\n".toList]

theorem parts_pieces (g : Bits → CStr) (fl : DebugFlags) (o : Shown) :
    List.Forall₂ (Writes g fl) (parts o) (pieces (shownNum g fl) o) := by
  have e : ∀ (x : Datum) (fmt : String) (rest : CStr) (as : List Arg) (u : CStr), fmt.toList = '%' :: 'g' :: rest →
      ('g' ∉ rest) → printf g rest as = .ok u → Writes g fl (x, fmt, .num x.promoted :: as) (shownNum g fl x ++ u) := by
    intro x fmt rest as u hf hg hr
    have hrep : ∀ r : CStr, 'g' ∉ r → ∀ flt, replaceG flt r = r := by
      intro r
      induction r with
      | nil => intro _ _; rfl
      | cons c r ih =>
        intro h flt
        simp only [List.mem_cons, not_or] at h
        rw [replaceG, if_neg (Ne.symm h.1), ih h.2]
    have key : ∀ u', printf g rest as = .ok u' → ∀ flt : CStr, replaceG flt ('%' :: 'g' :: rest) = '%' :: (flt ++ rest) := by
      intro u' _ flt
      simp only [replaceG]
      rw [if_neg (by decide), if_pos trivial, hrep rest hg]
    unfold Writes
    dsimp only
    rw [hf, key u hr]
    obtain ⟨dbg, b2, b3, b4, sn⟩ := fl
    obtain ⟨dbl, bits⟩ := x
    cases dbg
    · cases sn <;> cases dbl <;> (simp [fltFmt, printf, convert, hr, shownNum]) 
    · simp [printf, convert, hr, shownNum]
  cases o with
  | arith op a b c =>
    refine .cons (e a _ " %s ".toList _ _ rfl (by decide) rfl) (.cons (e b _ " -> ".toList _ _ rfl (by decide) rfl)
      (.cons (e c _ "\n".toList _ _ rfl (by decide) rfl) .nil))
  | cmp op a b c =>
    exact .cons (e a _ " [%s] ".toList _ _ rfl (by decide) rfl) (.cons (e b _ " -> %s\n".toList _ _ rfl (by decide) rfl) .nil)
  | cast op a b =>
    exact .cons (e a _ " %s -> ".toList _ _ rfl (by decide) rfl) (.cons (e b _ "\n".toList _ _ rfl (by decide) rfl) .nil)
  | fma a b c d =>
    exact .cons (e a _ " * ".toList _ _ rfl (by decide) rfl) (.cons (e b _ " + ".toList _ _ rfl (by decide) rfl)
      (.cons (e c _ " -> ".toList _ _ rfl (by decide) rfl) (.cons (e d _ "\n".toList _ _ rfl (by decide) rfl) .nil)))

theorem pieces_body (num : Datum → CStr) (nl : CStr) (o : Shown) :
    (pieces num o).flatMap (fun t => t ++ nl) = body num nl o := by
  cases o <;> simp [pieces, body, List.append_assoc]

theorem pieces_congr (n1 n2 : Datum → CStr) (o : Shown) (h : ∀ x ∈ o.data, n1 x = n2 x) : pieces n1 o = pieces n2 o := by
  cases o <;> simp [pieces, Shown.data] at h ⊢ <;> simp [h]

theorem header_text (fl : DebugFlags) (v : Logger.Vars) (d : Logger.Stream) (hd : v.logfile = some d) (p : Logger.Proc) :
    ∃ p0, (if fl.noBackendName then .ok p
      else Logger.logTrace v .info (if fl.printNewLine then debugHeader fl ++ "\n".toList else debugHeader fl) p) = .ok p0 ∧
      ∀ s, Logger.text p0 s = Logger.text p s ++ (if d = s then headerLine fl v else []) := by
  unfold headerLine Logger.logTrace
  cases hn : fl.noBackendName
  · simp only [Bool.false_eq_true, if_false]
    by_cases hc : v.enabled = true ∧ v.level.toNat ≤ Logger.Level.info.toNat
    · rw [if_pos hc]
      simp only [Logger.toLog, hd, Outcome.bind_ok]
      refine ⟨_, rfl, fun s => ?_⟩
      rw [Logger.text_write, Logger.text_write, List.append_assoc]
      congr 1
      by_cases hs : d = s
      · simp only [if_pos hs, true_and, if_pos hc, List.append_assoc]
        congr 1
        unfold debugHeader
        cases fl.printNewLine
        · simp only [Bool.false_eq_true, if_false, List.append_nil]
        · simp only [if_true]
      · simp only [if_neg hs, List.append_nil]
    · rw [if_neg hc]
      refine ⟨p, rfl, fun s => ?_⟩
      simp only [true_and, if_neg hc, ite_self, List.append_nil]
  · refine ⟨p, rfl, fun s => ?_⟩
    simp only [Bool.true_eq_false, false_and, if_false, ite_self, List.append_nil]

/-- **C95** With `--debug` or `--debug-binary` every operation is written: its line on the standard error, the header on
the stream of the log when it is wanted.  Without them nothing is written. -/
theorem C95_text (g : Bits → CStr) (fl : DebugFlags) (v : Logger.Vars) (d : Logger.Stream) (hd : v.logfile = some d)
    (os : List Shown) (hw : ∀ o ∈ os, ∀ x ∈ o.data, x.WF) (p : Logger.Proc) :
    ∃ p', showAll g fl v os p = .ok p' ∧ ∀ s, Logger.text p' s = Logger.text p s ++
      (if fl.debug ∨ fl.debugBinary then
        os.flatMap fun o => (if d = s then headerLine fl v else []) ++
          (if .stderr = s then body (numText g fl) (if fl.printNewLine then "\n".toList else []) o else [])
      else []) := by
  induction os generalizing p with
  | nil => exact ⟨p, rfl, fun s => by simp⟩
  | cons o os ih =>
    have hone : ∃ p1, showOp g fl v o p = .ok p1 ∧ ∀ s, Logger.text p1 s = Logger.text p s ++
        (if fl.debug ∨ fl.debugBinary then (if d = s then headerLine fl v else []) ++
          (if .stderr = s then body (numText g fl) (if fl.printNewLine then "\n".toList else []) o else []) else []) := by
      unfold showOp
      by_cases hon : fl.debug ∨ fl.debugBinary
      swap
      · rw [if_neg hon]
        exact ⟨p, rfl, fun s => by simp [hon]⟩
      rw [if_pos hon]
      have hh := header_text fl v d hd p
      obtain ⟨p0, e0, t0⟩ := hh
      rw [e0, Outcome.bind_ok]
      obtain ⟨p1, e1, t1⟩ := parts_write g fl _ _ (parts_pieces g fl o) p0
      refine ⟨p1, e1, fun s => ?_⟩
      rw [t1 s, t0 s, if_pos hon, List.append_assoc]
      congr 2
      rw [pieces_congr _ (numText g fl) o (fun x hx => shownNum_eq g fl x (hw o (by simp) x hx)), pieces_body]
    obtain ⟨p1, e1, t1⟩ := hone
    obtain ⟨p', e2, t2⟩ := ih (fun o ho => hw o (by simp [ho])) p1
    refine ⟨p', by rw [showAll, e1, Outcome.bind_ok]; exact e2, fun s => ?_⟩
    rw [t2 s, t1 s, List.append_assoc]
    by_cases hon : fl.debug ∨ fl.debugBinary
    · simp only [if_pos hon, List.flatMap_cons]
    · simp only [if_neg hon, List.append_nil]

/-! ## Reading the trace -/

/-- The pieces of a text between the occurrences of a character. -/
def splitOn (c : Char) : CStr → List CStr
  | [] => [[]]
  | x :: t =>
    if x = c then [] :: splitOn c t
    else match splitOn c t with
      | [] => [[x]]
      | w :: ws => (x :: w) :: ws

/-- A number: three words, or one for infinities and NaNs. -/
def readNum : List CStr → Option (Num × List CStr)
  | w :: ['x'] :: e :: rest => (readBin (w ++ " x ".toList ++ e)).map (·, rest)
  | w :: rest => (readBin w).map (·, rest)
  | [] => none

/-- An operation as read from the trace. -/
inductive Entry
  | arith (op : CStr) (a b c : Num)
  | cmp (pred : CStr) (a b : Num) (c : Bool)
  | cast (a b : Num)
  | fma (a b c d : Num)
deriving DecidableEq

/-- The number which ends a line. -/
def lastNum (ws : List CStr) : Option Num :=
  (readNum ws).bind fun r => if r.2 = [] then some r.1 else none

/-- What a line says after `a op b`. -/
def readAfter (op : CStr) (a b : Num) : List CStr → Option Entry
  | [] => none
  | w :: r =>
    if op.head? = some '[' then
      if w = "->".toList ∧ r = ["true".toList] then some (.cmp (op.drop 1).dropLast a b true)
      else if w = "->".toList ∧ r = ["false".toList] then some (.cmp (op.drop 1).dropLast a b false)
      else none
    else if w = "->".toList then (lastNum r).map (.arith op a b)
    else if op = "*".toList ∧ w = "+".toList then
      (readNum r).bind fun c => if c.2.head? = some "->".toList then (lastNum (c.2.drop 1)).map (.fma a b c.1) else none
    else none

/-- What a line says: `a op b -> c`, `a [pred] b -> true`, `a (float) -> b` or `a * b + c -> d`. -/
def readLine (ws : List CStr) : Option Entry :=
  (readNum ws).bind fun a =>
    match a.2 with
    | [] => none
    | op :: r =>
      if op = "(float)".toList then
        if r.head? = some "->".toList then (lastNum (r.drop 1)).map (.cast a.1) else none
      else (readNum r).bind fun b => readAfter op a.1 b.1 b.2

/-- A trace: lines, each ended by a newline. -/
def readTrace (t : CStr) : Option (List Entry) :=
  if (splitOn '\n' t).getLast? = some [] then
    (splitOn '\n' t).dropLast.mapM fun l => readLine (splitOn ' ' l)
  else none

/-- What a datum is. -/
noncomputable def meant (x : Datum) : Num :=
  let F := if x.double then b64 else b32
  if x.bits.exp = F.expInf then (if x.bits.man = 0 then .inf x.bits.sign else .nan)
  else .fin x.bits.sign (x.bits.val F)

/-- What an operation is. -/
noncomputable def entryOf : Shown → Entry
  | .arith op a b c => .arith op (meant a) (meant b) (meant c)
  | .cmp op a b c => .cmp op (meant a) (meant b) c
  | .cast _ a b => .cast (meant a) (meant b)
  | .fma a b c d => .fma (meant a) (meant b) (meant c) (meant d)

/-- The names of the operations of the backend. -/
def Named : Shown → Prop
  | .arith op _ _ _ => op ∈ ["+".toList, "-".toList, "*".toList, "/".toList]
  | .cmp op _ _ _ => ∃ q : Pred, op = (predName q).toList
  | .cast op _ _ => op = "(float)".toList
  | .fma _ _ _ _ => True

theorem splitOn_ne (c : Char) (t : CStr) : splitOn c t ≠ [] := by
  cases t with
  | nil => simp [splitOn]
  | cons x t => rw [splitOn]; split; · simp
                split <;> simp

theorem splitOn_word (c : Char) (w t : CStr) (h : c ∉ w) : splitOn c (w ++ c :: t) = w :: splitOn c t := by
  induction w with
  | nil => rw [List.nil_append, splitOn, if_pos rfl]
  | cons x w ih =>
    simp only [List.mem_cons, not_or] at h
    rw [List.cons_append, splitOn, if_neg (Ne.symm h.1), ih h.2]

theorem splitOn_single (c : Char) (w : CStr) (h : c ∉ w) : splitOn c w = [w] := by
  induction w with
  | nil => rfl
  | cons x w ih =>
    simp only [List.mem_cons, not_or] at h
    rw [splitOn, if_neg (Ne.symm h.1), ih h.2]

/-- The digits of an integer and its sign. -/
theorem dec_chars (e : Int) : ∀ c ∈ Vfi.dec e, c = '-' ∨ c.isDigit := by
  intro c hc
  have hd : ∀ n c, c ∈ Nat.toDigits 10 n → c.isDigit := fun n c h => Nat.isDigit_of_mem_toDigits (by decide) (by decide) h
  unfold Vfi.dec at hc
  split at hc
  · rcases List.mem_cons.1 hc with h | h
    · exact .inl h
    · exact .inr (hd _ _ h)
  · exact .inr (hd _ _ hc)

theorem uintToBit_chars (W X : Nat) : ∀ c ∈ uintToBit W X, c = '0' ∨ c = '1' := by
  have hn : ∀ n c, c ∈ nibble n → c = '0' ∨ c = '1' := by
    intro n c hc
    simp only [nibble, List.mem_cons, List.not_mem_nil, or_false] at hc
    rcases hc with rfl | rfl | rfl | rfl <;> split <;> simp
  have hg : ∀ last fuel i c, c ∈ groups W X last fuel i → c = '0' ∨ c = '1' := by
    intro last fuel
    induction fuel with
    | zero => intro i c hc; simp [groups] at hc
    | succ f ih =>
      intro i c hc
      rw [groups] at hc
      split at hc
      · rcases List.mem_append.1 hc with h | h
        · exact hn _ _ h
        · exact ih _ _ h
      · simp at hc
  intro c hc
  unfold uintToBit at hc
  split at hc
  · simp only [List.mem_singleton] at hc
    exact .inl hc
  · unfold rtrim at hc
    rw [List.mem_reverse] at hc
    have := List.dropWhile_suffix (fun c => c != '1') (l := (groups W X (W - ffs W X + 1) (W / 4) 0).reverse)
    exact hg _ _ _ _ (List.mem_reverse.1 (this.subset hc))

/-- The text of a number is one word, or three of which the second is `x`. -/
theorem print_words (F : Fmt) (W : Nat) (alt : Bool) (x : Bits) :
    (∀ c ∈ printBin F W alt x, c ≠ ' ' ∧ c ≠ '\n') ∨
    ∃ w e : CStr, printBin F W alt x = w ++ (" x ".toList ++ e) ∧ (∀ c ∈ w, c ≠ ' ' ∧ c ≠ '\n') ∧
      (∀ c ∈ e, c ≠ ' ' ∧ c ≠ '\n') := by
  have hf : ∀ (s : Bool) (d : Char) (m : CStr) (e : Int), (d = '0' ∨ d = '1') → (∀ c ∈ m, c = '0' ∨ c = '1') →
      ∃ w e' : CStr, fmtBin s d m e = w ++ (" x ".toList ++ e') ∧ (∀ c ∈ w, c ≠ ' ' ∧ c ≠ '\n') ∧
      (∀ c ∈ e', c ≠ ' ' ∧ c ≠ '\n') := by
    intro s d m e hd hm
    refine ⟨(if s then '-' else '+') :: d :: '.' :: m, "2^".toList ++ Vfi.dec e, ?_, ?_, ?_⟩
    · rw [fmtBin]; rfl
    · intro c hc
      simp only [List.mem_cons] at hc
      rcases hc with rfl | rfl | rfl | hc
      · cases s <;> decide
      · rcases hd with rfl | rfl <;> decide
      · decide
      · rcases hm c hc with rfl | rfl <;> decide
    · intro c hc
      rcases List.mem_append.1 hc with h | h
      · have : c = '2' ∨ c = '^' := by simpa using h
        rcases this with rfl | rfl <;> decide
      · rcases dec_chars e c h with rfl | h
        · decide
        · constructor
          · rintro rfl; exact absurd h (by decide)
          · rintro rfl; exact absurd h (by decide)
  unfold printBin
  dsimp only
  split
  · exact .inr (hf _ _ _ _ (.inl rfl) (by decide))
  split
  · left
    intro c hc
    rcases List.mem_cons.1 hc with rfl | h
    · cases x.sign <;> decide
    · have : c = 'i' ∨ c = 'n' ∨ c = 'f' := by simpa using h
      rcases this with rfl | rfl | rfl <;> decide
  split
  · left
    decide
  split
  · split
    · exact .inr (hf _ _ _ _ (.inr rfl) (uintToBit_chars _ _))
    · exact .inr (hf _ _ _ _ (.inl rfl) (uintToBit_chars _ _))
  · exact .inr (hf _ _ _ _ (.inr rfl) (uintToBit_chars _ _))

theorem readBin_text (g : Bits → CStr) (fl : DebugFlags) (hb : fl.debug = false) (x : Datum) (hx : x.WF) :
    readBin (numText g fl x) = some (meant x) := by
  unfold numText meant
  rw [if_neg (by simp [hb])]
  obtain ⟨dbl, y⟩ := x
  cases dbl
  · have hy : y.WF b32 := hx
    simp only [Bool.false_eq_true, if_false]
    by_cases hf : y.Fin b32
    · rw [C29_denotes b32 32 8 layout32 _ y hy hf, if_neg hf]
    · rw [C29_special b32 32 (by decide) _ y hf, if_pos (not_not.1 hf)]
  · have hy : y.WF b64 := hx
    simp only [if_true]
    by_cases hf : y.Fin b64
    · rw [C29_denotes b64 64 16 layout64 _ y hy hf, if_neg hf]
    · rw [C29_special b64 64 (by decide) _ y hf, if_pos (not_not.1 hf)]

theorem text_words (g : Bits → CStr) (fl : DebugFlags) (hb : fl.debug = false) (x : Datum) (hx : x.WF) :
    '\n' ∉ numText g fl x ∧ ∃ ws : List CStr, (∀ rest, splitOn ' ' (numText g fl x ++ ' ' :: rest) = ws ++ splitOn ' ' rest) ∧
      splitOn ' ' (numText g fl x) = ws ∧ ∀ r : List CStr, r.head? ≠ some ['x'] → readNum (ws ++ r) = some (meant x, r) := by
  have hr := readBin_text g fl hb x hx
  have hsh : (∀ c ∈ numText g fl x, c ≠ ' ' ∧ c ≠ '\n') ∨ ∃ w e : CStr, numText g fl x = w ++ (" x ".toList ++ e) ∧
      (∀ c ∈ w, c ≠ ' ' ∧ c ≠ '\n') ∧ (∀ c ∈ e, c ≠ ' ' ∧ c ≠ '\n') := by
    unfold numText
    rw [if_neg (by simp [hb])]
    split
    · exact print_words ..
    · exact print_words ..
  generalize numText g fl x = t at hr hsh
  rcases hsh with h | ⟨w, e, rfl, hw, he⟩
  · refine ⟨fun hc => (h _ hc).2 rfl, [t], fun rest => ?_, splitOn_single _ _ (fun hc => (h _ hc).1 rfl), fun r hx => ?_⟩
    · rw [splitOn_word _ _ _ (fun hc => (h _ hc).1 rfl)]; rfl
    · rw [List.singleton_append]
      cases r with
      | nil => simp [readNum, hr]
      | cons v r =>
        have hv : v ≠ ['x'] := fun h => hx (by rw [h]; rfl)
        rw [readNum]
        · rw [hr]; rfl
        · intro e r' h1
          exact hv (List.cons.inj h1).1
  · have hw' : ' ' ∉ w := fun hc => (hw _ hc).1 rfl
    have he' : ' ' ∉ e := fun hc => (he _ hc).1 rfl
    refine ⟨?_, [w, ['x'], e], fun rest => ?_, ?_, fun r _ => ?_⟩
    · intro hc
      rcases List.mem_append.1 hc with hc | hc
      · exact (hw _ hc).2 rfl
      rcases List.mem_append.1 hc with hc | hc
      · exact absurd hc (by decide)
      · exact (he _ hc).2 rfl
    · rw [show w ++ (" x ".toList ++ e) ++ ' ' :: rest = w ++ ' ' :: (['x'] ++ ' ' :: (e ++ ' ' :: rest)) by
        rw [List.append_assoc, List.append_assoc]; rfl]
      rw [splitOn_word _ _ _ hw', splitOn_word _ _ _ (by decide), splitOn_word _ _ _ he']
      rfl
    · rw [show w ++ (" x ".toList ++ e) = w ++ ' ' :: (['x'] ++ ' ' :: e) from rfl]
      rw [splitOn_word _ _ _ hw', splitOn_word _ _ _ (by decide), splitOn_single _ _ he']
    · simp only [List.cons_append, List.nil_append, readNum]
      rw [List.append_assoc, hr]
      rfl

/-- The line of an operation. -/
theorem body_line (g : Bits → CStr) (fl : DebugFlags) (hb : fl.debug = false) (o : Shown) (hw : ∀ x ∈ o.data, x.WF)
    (hn : Named o) :
    ∃ l : CStr, body (numText g fl) [] o = l ++ ['\n'] ∧ '\n' ∉ l ∧ readLine (splitOn ' ' l) = some (entryOf o) := by
  have hlast : ∀ x : Datum, x.WF → lastNum (splitOn ' ' (numText g fl x)) = some (meant x) := by
    intro x hx
    obtain ⟨-, ws, -, h2, h3⟩ := text_words g fl hb x hx
    have := h3 [] (by simp)
    rw [List.append_nil] at this
    rw [h2, lastNum, this]
    rfl
  cases o with
  | arith op a b c =>
    obtain ⟨na, wa, ea, -, ra⟩ := text_words g fl hb a (hw a (by simp [Shown.data]))
    obtain ⟨nb, wb, eb, -, rb⟩ := text_words g fl hb b (hw b (by simp [Shown.data]))
    obtain ⟨nc, -⟩ := text_words g fl hb c (hw c (by simp [Shown.data]))
    have hl := hlast c (hw c (by simp [Shown.data]))
    have hop : ' ' ∉ op ∧ '\n' ∉ op ∧ op ≠ ['x'] ∧ op ≠ "(float)".toList ∧ (∀ p, op ≠ '[' :: p) := by
      have : op = ['+'] ∨ op = ['-'] ∨ op = ['*'] ∨ op = ['/'] := by simpa [Named] using hn
      rcases this with rfl | rfl | rfl | rfl <;> simp
    refine ⟨numText g fl a ++ ' ' :: (op ++ ' ' :: (numText g fl b ++ ' ' :: (['-', '>'] ++ ' ' :: numText g fl c))), ?_, ?_, ?_⟩
    · simp [body, List.append_assoc]
    · simp [na, nb, nc, hop]
    · rw [ea, splitOn_word _ _ _ hop.1, eb, splitOn_word _ _ _ (by decide)]
      have h1 := ra (op :: (wb ++ ['-', '>'] :: splitOn ' ' (numText g fl c))) (by simpa using hop.2.2.1)
      have h2 := rb (['-', '>'] :: splitOn ' ' (numText g fl c)) (by simp)
      rw [readLine, h1]
      simp only [Option.bind_some]
      rw [if_neg hop.2.2.2.1, h2]
      simp only [Option.bind_some]
      rw [readAfter, if_neg, if_pos (show ['-', '>'] = "->".toList from rfl), hl]
      · rfl
      · intro h
        cases op with
        | nil => cases h
        | cons c op => exact hop.2.2.2.2 op (by rw [Option.some.inj h])
  | cmp op a b c =>
    obtain ⟨na, wa, ea, -, ra⟩ := text_words g fl hb a (hw a (by simp [Shown.data]))
    obtain ⟨nb, wb, eb, -, rb⟩ := text_words g fl hb b (hw b (by simp [Shown.data]))
    obtain ⟨q, rfl⟩ := hn
    have hop : ' ' ∉ (predName q).toList ∧ '\n' ∉ (predName q).toList := by cases q <;> decide
    have hr : ' ' ∉ (if c then "true".toList else "false".toList) ∧ '\n' ∉ (if c then "true".toList else "false".toList) := by
      cases c <;> decide
    refine ⟨numText g fl a ++ ' ' :: (('[' :: (predName q).toList ++ [']']) ++ ' ' :: (numText g fl b ++ ' ' :: (['-', '>'] ++ ' ' ::
      (if c then "true".toList else "false".toList)))), ?_, ?_, ?_⟩
    · simp [body, List.append_assoc]
    · intro hc
      simp only [List.mem_append, List.mem_cons, List.not_mem_nil, or_false] at hc
      rcases hc with hc | hc | ((hc | hc) | hc) | hc | hc | hc | (hc | hc) | hc | hc
      · exact na hc
      · exact absurd hc (by decide)
      · exact absurd hc (by decide)
      · exact hop.2 hc
      · exact absurd hc (by decide)
      · exact absurd hc (by decide)
      · exact nb hc
      · exact absurd hc (by decide)
      · exact absurd hc (by decide)
      · exact absurd hc (by decide)
      · exact absurd hc (by decide)
      · exact hr.2 hc
    · have hop' : ' ' ∉ '[' :: (predName q).toList ++ [']'] := by simp [hop.1]
      rw [ea, splitOn_word _ _ _ hop', eb, splitOn_word _ _ _ (by decide), splitOn_single _ _ hr.1]
      have h1 := ra (('[' :: (predName q).toList ++ [']']) :: (wb ++ [['-', '>'], if c then "true".toList else "false".toList]))
        (by simp)
      have h2 := rb [['-', '>'], if c then "true".toList else "false".toList] (by simp)
      rw [readLine, h1]
      simp only [Option.bind_some]
      rw [if_neg (by simp), h2]
      simp only [Option.bind_some]
      rw [readAfter, if_pos (show ('[' :: (predName q).toList ++ [']']).head? = some '[' from rfl)]
      have hd : (('[' :: (predName q).toList ++ [']']).drop 1).dropLast = (predName q).toList := by simp
      rw [hd]
      cases c
      · rw [if_neg (by simp), if_pos ⟨rfl, rfl⟩]; rfl
      · rw [if_pos ⟨rfl, rfl⟩]; rfl
  | cast op a b =>
    obtain ⟨na, wa, ea, -, ra⟩ := text_words g fl hb a (hw a (by simp [Shown.data]))
    obtain ⟨nb, -⟩ := text_words g fl hb b (hw b (by simp [Shown.data]))
    have hl := hlast b (hw b (by simp [Shown.data]))
    obtain rfl : op = "(float)".toList := hn
    refine ⟨numText g fl a ++ ' ' :: ("(float)".toList ++ ' ' :: (['-', '>'] ++ ' ' :: numText g fl b)), ?_, ?_, ?_⟩
    · simp [body, List.append_assoc]
    · simp [na, nb]
    · rw [ea, splitOn_word _ _ _ (by decide), splitOn_word _ _ _ (by decide)]
      have h1 := ra ("(float)".toList :: ['-', '>'] :: splitOn ' ' (numText g fl b)) (by simp)
      rw [readLine, h1]
      simp only [Option.bind_some]
      rw [if_pos trivial,
        if_pos (show (['-', '>'] :: splitOn ' ' (numText g fl b)).head? = some "->".toList from rfl)]
      show (lastNum (splitOn ' ' (numText g fl b))).map _ = _
      rw [hl]
      rfl
  | fma a b c d =>
    obtain ⟨na, wa, ea, -, ra⟩ := text_words g fl hb a (hw a (by simp [Shown.data]))
    obtain ⟨nb, wb, eb, -, rb⟩ := text_words g fl hb b (hw b (by simp [Shown.data]))
    obtain ⟨nc, wc, ec, -, rc⟩ := text_words g fl hb c (hw c (by simp [Shown.data]))
    obtain ⟨nd, -⟩ := text_words g fl hb d (hw d (by simp [Shown.data]))
    have hl := hlast d (hw d (by simp [Shown.data]))
    refine ⟨numText g fl a ++ ' ' :: (['*'] ++ ' ' :: (numText g fl b ++ ' ' :: (['+'] ++ ' ' :: (numText g fl c ++ ' ' ::
      (['-', '>'] ++ ' ' :: numText g fl d))))), ?_, ?_, ?_⟩
    · simp [body, List.append_assoc]
    · simp [na, nb, nc, nd]
    · rw [ea, splitOn_word _ _ _ (by decide), eb, splitOn_word _ _ _ (by decide), ec, splitOn_word _ _ _ (by decide)]
      have h1 := ra (['*'] :: (wb ++ ['+'] :: (wc ++ ['-', '>'] :: splitOn ' ' (numText g fl d)))) (by simp)
      have h2 := rb (['+'] :: (wc ++ ['-', '>'] :: splitOn ' ' (numText g fl d))) (by simp)
      have h3 := rc (['-', '>'] :: splitOn ' ' (numText g fl d)) (by simp)
      rw [readLine, h1]
      simp only [Option.bind_some]
      rw [if_neg (by simp), h2]
      simp only [Option.bind_some]
      rw [readAfter, if_neg (by simp), if_neg (by simp), if_pos ⟨rfl, rfl⟩, h3]
      simp only [Option.bind_some]
      rw [if_pos (show (['-', '>'] :: splitOn ' ' (numText g fl d)).head? = some "->".toList from rfl)]
      show (lastNum (splitOn ' ' (numText g fl d))).map _ = _
      rw [hl]
      rfl

/-- **C95** The trace of `--debug-binary` says which operations were done, in order, on which numbers and with which
results: nothing but the payloads and signs of NaNs is lost. -/
theorem C95_read (g : Bits → CStr) (fl : DebugFlags) (hb : fl.debug = false) (os : List Shown)
    (hw : ∀ o ∈ os, ∀ x ∈ o.data, x.WF) (hn : ∀ o ∈ os, Named o) :
    readTrace (os.flatMap (body (numText g fl) [])) = some (os.map entryOf) := by
  have key : ∃ ls : List CStr, splitOn '\n' (os.flatMap (body (numText g fl) [])) = ls ++ [[]] ∧
      ls.mapM (fun l => readLine (splitOn ' ' l)) = some (os.map entryOf) := by
    induction os with
    | nil => exact ⟨[], rfl, rfl⟩
    | cons o os ih =>
      obtain ⟨ls, h1, h2⟩ := ih (fun o ho => hw o (by simp [ho])) (fun o ho => hn o (by simp [ho]))
      obtain ⟨l, e1, e2, e3⟩ := body_line g fl hb o (hw o (by simp)) (hn o (by simp))
      refine ⟨l :: ls, ?_, ?_⟩
      · rw [List.flatMap_cons, e1, List.append_assoc, List.singleton_append, splitOn_word _ _ _ e2, h1]; rfl
      · rw [List.mapM_cons, e3, h2]; rfl
  obtain ⟨ls, h1, h2⟩ := key
  rw [readTrace, h1, if_pos (by simp), List.dropLast_concat, h2]

/-- **C95** Comparisons are told apart: no two predicates have the same name. -/
theorem C95_names (a b : Pred) (h : predName a = predName b) : a = b := by
  revert h
  cases a <;> cases b <;> decide

/-- The trace of `a < b` is not that of `a <= b`. -/
example : predName .olt ≠ predName .ole := fun h => nomatch C95_names _ _ h

/-! ## What the trace does not say -/

/-- **C95** is false of a log file: `VFC_BACKENDS_LOGFILE` gets the header of each operation and nothing of the
operation. -/
theorem C95_logfile_wrong (g : Bits → CStr) (fl : DebugFlags) (hon : fl.debug ∨ fl.debugBinary) (v : Logger.Vars)
    (d : Logger.Stream) (hd : v.logfile = some d) (hf : d ≠ .stderr) (os : List Shown) (hw : ∀ o ∈ os, ∀ x ∈ o.data, x.WF)
    (p : Logger.Proc) :
    ∃ p', showAll g fl v os p = .ok p' ∧
      Logger.text p' d = Logger.text p d ++ (List.replicate os.length (headerLine fl v)).flatten := by
  obtain ⟨p', h1, h2⟩ := C95_text g fl v d hd os hw p
  refine ⟨p', h1, ?_⟩
  rw [h2 d, if_pos hon]
  simp only [if_pos, if_neg (Ne.symm hf), List.append_nil]
  congr 1
  clear h1 h2 hw
  induction os with
  | nil => rfl
  | cons o os ih => rw [List.flatMap_cons, ih]; rfl

/-- The orders in which what two threads write can come. -/
inductive Merge {α : Type} : List α → List α → List α → Prop
  | nil : Merge [] [] []
  | left {x l r t} : Merge l r t → Merge (x :: l) r (x :: t)
  | right {x l r t} : Merge l r t → Merge l (x :: r) (x :: t)

/-- **C95** is false of threads: a product and a sum done at the same time can be written as a fused multiply-add, which
nobody has done, followed by a line without operands. -/
theorem C95_threads_wrong (g : Bits → CStr) (fl : DebugFlags) (hb : fl.debug = false) (a b c a' b' c' : Datum)
    (hw : ∀ x ∈ [a, b, c, a', b', c'], x.WF) :
    ∃ t, Merge (pieces (numText g fl) (.arith "*".toList a b c)) (pieces (numText g fl) (.arith "+".toList a' b' c')) t ∧
      t.flatten = body (numText g fl) [] (.fma a a' b c) ++ (numText g fl b' ++ " -> ".toList ++ numText g fl c' ++ "\n".toList) ∧
      ((splitOn '\n' t.flatten).head?.bind fun l => readLine (splitOn ' ' l)) =
        some (.fma (meant a) (meant a') (meant b) (meant c)) := by
  have e : [numText g fl a ++ (" ".toList ++ ("*".toList ++ " ".toList)),
        numText g fl a' ++ (" ".toList ++ ("+".toList ++ " ".toList)), numText g fl b ++ " -> ".toList,
        numText g fl c ++ "\n".toList, numText g fl b' ++ " -> ".toList, numText g fl c' ++ "\n".toList].flatten =
      body (numText g fl) [] (.fma a a' b c) ++ (numText g fl b' ++ " -> ".toList ++ numText g fl c' ++ "\n".toList) := by
    simp [body, List.append_assoc]
  refine ⟨_, .left (.right (.left (.left (.right (.right .nil))))), e, ?_⟩
  obtain ⟨l, e1, e2, e3⟩ := body_line g fl hb (.fma a a' b c)
    (by intro x hx; apply hw; simp only [Shown.data, List.mem_cons, List.not_mem_nil, or_false] at hx ⊢; tauto) trivial
  rw [e, e1, List.append_assoc, List.singleton_append, splitOn_word _ _ _ e2]
  exact e3

/-- With `--print-new-line` each number is on its own line, and the trace cannot be read. -/
theorem C95_newline_wrong (g : Bits → CStr) (fl : DebugFlags) (hb : fl.debug = false) (op : CStr) (a b c : Datum)
    (hw : ∀ x ∈ [a, b, c], x.WF) (hn : Named (.arith op a b c)) (rest : CStr) :
    readTrace (body (numText g fl) "\n".toList (.arith op a b c) ++ rest) = none := by
  obtain ⟨na, wa, ea, -, ra⟩ := text_words g fl hb a (hw a (by simp))
  have hop : ' ' ∉ op ∧ '\n' ∉ op ∧ op ≠ ['x'] ∧ op ≠ "(float)".toList := by
    have : op = ['+'] ∨ op = ['-'] ∨ op = ['*'] ∨ op = ['/'] := by simpa [Named] using hn
    rcases this with rfl | rfl | rfl | rfl <;> simp
  have hl : ∃ r, splitOn '\n' (body (numText g fl) "\n".toList (.arith op a b c) ++ rest) =
      (numText g fl a ++ ' ' :: (op ++ ' ' :: [])) :: r ∧ r ≠ [] := by
    refine ⟨splitOn '\n' (numText g fl b ++ " -> ".toList ++ "\n".toList ++ numText g fl c ++ "\n".toList ++ "\n".toList ++ rest),
      ?_, splitOn_ne _ _⟩
    rw [← splitOn_word]
    · simp [body, List.append_assoc]
    · simp [na, hop.2.1]
  obtain ⟨r, h1, h2⟩ := hl
  have hbad : readLine (splitOn ' ' (numText g fl a ++ ' ' :: (op ++ ' ' :: []))) = none := by
    rw [ea, splitOn_word _ _ _ hop.1]
    have := ra [op, []] (by simpa using hop.2.2.1)
    rw [readLine, show wa ++ op :: splitOn ' ' [] = wa ++ [op, []] from rfl, this]
    simp only [Option.bind_some]
    rw [if_neg hop.2.2.2]
    rfl
  rw [readTrace, h1]
  split
  · rw [List.dropLast_cons_of_ne_nil h2, List.mapM_cons, hbad]
    rfl
  · rfl

/-- `1.5f + -inf -> -inf`, then a comparison. -/
def someOps : List Shown :=
  [.arith "+".toList ⟨false, ⟨false, 127, 0x400000⟩⟩ ⟨false, ⟨true, 255, 0⟩⟩ ⟨false, ⟨true, 255, 0⟩⟩,
    .cmp "FCMP_OLT".toList ⟨true, ⟨false, 0, 0⟩⟩ ⟨true, ⟨false, 1023, 0⟩⟩ true]

example : (∀ o ∈ someOps, ∀ x ∈ o.data, x.WF) ∧ (∀ o ∈ someOps, Named o) := by
  refine ⟨?_, ?_⟩
  · intro o ho
    simp only [someOps, List.mem_cons, List.not_mem_nil, or_false] at ho
    rcases ho with rfl | rfl
    · intro x hx
      simp only [Shown.data, List.mem_cons, List.not_mem_nil, or_false] at hx
      rcases hx with rfl | rfl | rfl <;> exact ⟨by decide, by decide⟩
    · intro x hx
      simp only [Shown.data, List.mem_cons, List.not_mem_nil, or_false] at hx
      rcases hx with rfl | rfl <;> exact ⟨by decide, by decide⟩
  intro o ho
  simp only [someOps, List.mem_cons, List.not_mem_nil, or_false] at ho
  rcases ho with rfl | rfl
  · simp [Named]
  · exact ⟨.olt, rfl⟩

example : someOps.flatMap (body (numText (fun _ => []) ⟨false, true, true, false, false⟩) []) =
    "+1.1 x 2^0 + -inf -> -inf\n+0.0 x 2^0 [FCMP_OLT] +1.0 x 2^0 -> true\n".toList := by decide +kernel

example : headerLine ⟨true, false, false, false, false⟩ ⟨"interflop_ieee".toList, true, false, .info, some .stderr⟩ =
    "Info [interflop_ieee]: Decimal ".toList := by decide +kernel

end Verif.Ieee
