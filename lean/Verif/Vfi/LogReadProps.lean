import Verif.Vfi.LogProps
import Verif.Vprec.Wf

/-! # Reading the log of the function instrumentation (C108) -/

namespace Verif.Vfi
open Verif Verif.Fp Verif.Vprec.Config
open Verif.Ieee (splitOn splitOn_word splitOn_single splitOn_ne dec_chars)

/-! ## The text of a line -/

/-- `%s\t%d\t%d\t%d\t%d` -/
def opsLine (id : Id) (o : Int × Int × Int × Int) : List Char :=
  id ++ ('\t' :: (dec o.1 ++ ('\t' :: (dec o.2.1 ++ ('\t' :: (dec o.2.2.1 ++ ('\t' :: dec o.2.2.2)))))))

/-- The text of a line about a value. -/
def valueBody (d : Nat) (inp : Bool) (fid : Id) (dbl : Bool) (arg : Id) (v w : Bits) (m e : Int) : List Char :=
  (if inp then " - input".toList else " - output".toList) ++ ('\t' :: (fid ++ ('\t' :: ((if dbl then "double".toList else "float".toList) ++ ('\t' :: (arg ++
    ('\t' :: (Probes.hexA v ++ ('\t' :: ("->".toList ++ ('\t' :: (List.replicate d '\t' ++ (Probes.hexA w ++ ('\t' ::
      ('(' :: (dec m ++ (',' :: ((if inp then [' '] else []) ++ (dec e ++ [')'])))))))))))))))))))

/-- The text of a line, without its tabs at the beginning. -/
def Entry.body : Entry → List Char
  | .blank _ => []
  | .enter _ id o => "enter in ".toList ++ opsLine id o
  | .exit _ id o => "exit of ".toList ++ opsLine id o
  | .value d inp fid dbl arg v w m e => valueBody d inp fid dbl arg v w m e

def Entry.depth : Entry → Nat
  | .blank d => d
  | .enter d _ _ => d
  | .exit d _ _ => d
  | .value d _ _ _ _ _ _ _ _ => d

def Entry.line (e : Entry) : List Char := List.replicate e.depth '\t' ++ e.body

/-- The lines one after the other. -/
def text (es : List Entry) : List Char := es.flatMap fun e => e.line ++ ['\n']

/-- Identifiers without tabs and newlines. -/
def Plain (id : Id) : Prop := '\t' ∉ id ∧ '\n' ∉ id

/-- Names without tabs and newlines, numbers of type `double`. -/
def Entry.Clean : Entry → Prop
  | .blank _ => True
  | .enter _ id _ => Plain id
  | .exit _ id _ => Plain id
  | .value _ _ fid _ arg v w _ _ => Plain fid ∧ Plain arg ∧ v.WF b64 ∧ w.WF b64

theorem dec_no (n : Int) (c : Char) (h : c ≠ '-') (hd : c.isDigit = false) : c ∉ dec n := fun hc => by
  rcases dec_chars n c hc with rfl | h'
  · exact h rfl
  · rw [hd] at h'; cases h'

theorem dec_plain (n : Int) : Plain (dec n) := ⟨dec_no n _ (by decide) (by decide), dec_no n _ (by decide) (by decide)⟩

theorem hexA_plain (x : Bits) : Plain (Probes.hexA x) :=
  ⟨fun h => (Probes.hexA_chars x _ h).2.2 rfl, fun h => (Probes.hexA_chars x _ h).2.1 rfl⟩

theorem hexA_ne (x : Bits) : Probes.hexA x ≠ [] := by
  unfold Probes.hexA
  split_ifs <;> simp

/-! ## Reading a line -/

theorem dec_ne (n : Int) : dec n ≠ [] := by
  obtain ⟨c, cs, h, -⟩ := toDigits_spec n.natAbs
  unfold dec
  split
  · simp
  · rw [h]; simp

theorem readInt_dec (n : Int) : readInt (dec n) = some n := by
  have hall : (Nat.toDigits 10 n.natAbs).all Char.isDigit = true :=
    List.all_eq_true.2 fun c h => Nat.isDigit_of_mem_toDigits (by decide) (by decide) h
  have hne : Nat.toDigits 10 n.natAbs ≠ [] := by
    obtain ⟨c, cs, h, -⟩ := toDigits_spec n.natAbs
    rw [h]; simp
  have hv : Nat.ofDigitChars 10 (Nat.toDigits 10 n.natAbs) 0 = n.natAbs := Nat.ofDigitChars_ten_toDigits
  unfold dec
  split
  · rw [readInt, if_pos ⟨hne, hall⟩, hv]
    congr 1; omega
  · unfold readInt
    split
    · next t ht =>
      exfalso
      have := List.all_eq_true.1 hall '-' (by rw [ht]; simp)
      cases this
    · rw [if_pos ⟨hne, hall⟩, hv]
      congr 1; omega

theorem readPair_text (inp : Bool) (m e : Int) : readPair ('(' :: (dec m ++ (',' :: ((if inp then [' '] else []) ++ (dec e ++ [')']))))) = some (m, e) := by
  have hc : ∀ n, ',' ∉ dec n := fun n => dec_no n _ (by decide) (by decide)
  have hl : ('(' :: (dec m ++ (',' :: ((if inp then [' '] else []) ++ (dec e ++ [')']))))).getLast? = some ')' := by
    rw [← List.cons_append, ← List.cons_append, ← List.append_assoc, ← List.append_assoc, List.getLast?_append]
    rfl
  have hd : (dec m ++ (',' :: ((if inp then [' '] else []) ++ (dec e ++ [')'])))).dropLast = dec m ++ (',' :: ((if inp then [' '] else []) ++ dec e)) := by
    rw [← List.cons_append, ← List.append_assoc, ← List.append_assoc, List.dropLast_concat, List.append_assoc, List.cons_append]
  unfold readPair
  rw [if_pos ⟨rfl, hl⟩, List.drop_succ_cons, List.drop_zero, hd, splitOn_word ',' _ _ (hc m), splitOn_single ',' _ (by
    rw [List.mem_append, not_or]
    exact ⟨by cases inp <;> simp, hc e⟩)]
  have hs : ((if inp then [' '] else []) ++ dec e).dropWhile (· == ' ') = dec e := by
    have h' : (dec e).dropWhile (· == ' ') = dec e := by
      cases hde : dec e with
      | nil => rfl
      | cons c cs =>
        rw [List.dropWhile_cons_of_neg]
        have : ' ' ∉ dec e := dec_no e _ (by decide) (by decide)
        rw [hde] at this
        simp only [List.mem_cons, not_or] at this
        simpa using Ne.symm this.1
    cases inp
    · exact h'
    · rw [if_pos rfl, List.singleton_append, List.dropWhile_cons_of_pos (by decide)]; exact h'
  simp only [hs, readInt_dec, Option.bind_some, Option.map_some]

theorem splitOn_tabs (d : Nat) (w : List Char) : splitOn '\t' (List.replicate d '\t' ++ w) = List.replicate d [] ++ splitOn '\t' w := by
  induction d with
  | zero => rfl
  | succ d ih =>
    have := splitOn_word '\t' [] (List.replicate d '\t' ++ w) (by simp)
    rw [List.replicate_succ, List.cons_append, List.replicate_succ, List.cons_append, ← ih]
    exact this

/-- The fields of a line. -/
def opsFields (o : Int × Int × Int × Int) : List (List Char) := [dec o.1, dec o.2.1, dec o.2.2.1, dec o.2.2.2]

theorem opsLine_fields (w : List Char) (id : Id) (o : Int × Int × Int × Int) (h : '\t' ∉ w) (hi : Plain id) :
    splitOn '\t' (w ++ opsLine id o) = (w ++ id) :: opsFields o := by
  unfold opsLine
  rw [← List.append_assoc, splitOn_word _ _ _ (by rw [List.mem_append, not_or]; exact ⟨h, hi.1⟩), splitOn_word _ _ _ (dec_plain _).1,
    splitOn_word _ _ _ (dec_plain _).1, splitOn_word _ _ _ (dec_plain _).1, splitOn_single _ _ (dec_plain _).1]
  rfl

theorem readOps_fields (o : Int × Int × Int × Int) : readOps (opsFields o) = some o := by
  simp only [readOps, opsFields, readInt_dec, Option.bind_some, Option.map_some]

theorem dropWhile_nils (d : Nat) (w : List Char) (r : List (List Char)) (h : w ≠ []) :
    (List.replicate d [] ++ w :: r).dropWhile (· == []) = w :: r := by
  induction d with
  | zero => rw [List.replicate_zero, List.nil_append, List.dropWhile_cons_of_neg (by simpa using h)]
  | succ d ih => rw [List.replicate_succ, List.cons_append, List.dropWhile_cons_of_pos (by rfl), ih]

theorem readFields_enter (d : Nat) (id : Id) (o : Int × Int × Int × Int) :
    readFields d (("enter in ".toList ++ id) :: opsFields o) = some (.enter d id o) := by
  unfold readFields
  dsimp only
  rw [if_pos (by rw [List.isPrefixOf_iff_prefix]; exact List.prefix_append _ _), readOps_fields]
  rfl

theorem readFields_exit (d : Nat) (id : Id) (o : Int × Int × Int × Int) :
    readFields d (("exit of ".toList ++ id) :: opsFields o) = some (.exit d id o) := by
  unfold readFields
  dsimp only
  rw [if_neg (by intro hh; rw [List.isPrefixOf_iff_prefix] at hh; obtain ⟨t, ht⟩ := hh; simp at ht),
      if_pos (by rw [List.isPrefixOf_iff_prefix]; exact List.prefix_append _ _), readOps_fields]
  rfl

theorem readLine_fields (d : Nat) (w : List Char) (r : List (List Char)) (b : List Char) (h : w ≠ []) (hb : splitOn '\t' b = w :: r) :
    readLine (List.replicate d '\t' ++ b) = readFields d (w :: r) := by
  unfold readLine
  simp only [splitOn_tabs, hb, dropWhile_nils d w r h]
  rw [if_neg (by simp)]
  congr 1
  simp

theorem fromHex_seen (x : Bits) (hx : x.WF b64) : Probes.fromHex (Probes.hexA x) = some (seen x) := by
  unfold seen
  split
  · next h =>
    unfold Probes.hexA
    rw [Probes.fromHex_signed _ _ (by rw [if_pos h.1, if_neg h.2]; decide), if_pos h.1, if_neg h.2]
    unfold Probes.unsignedHex
    rw [if_neg (by decide), if_pos rfl]
  · next h => exact Probes.hexA_round_trip x hx h

/-- A line tells what it is about. -/
theorem readLine_line (e : Entry) (h : e.Clean) : readLine e.line = some e.seen := by
  cases e with
  | blank d =>
    have : splitOn '\t' (List.replicate d '\t') = List.replicate d [] ++ [[]] := by
      have := splitOn_tabs d []
      rwa [List.append_nil] at this
    show readLine (List.replicate d '\t' ++ []) = _
    unfold readLine
    rw [List.append_nil]
    simp only [this]
    have hn : (List.replicate d ([] : List Char) ++ [[]]).dropWhile (· == []) = [] := by
      clear this h
      induction d with
      | zero => rfl
      | succ d ih => rw [List.replicate_succ, List.cons_append, List.dropWhile_cons_of_pos (by rfl), ih]
    rw [hn, if_pos rfl]
    simp [Entry.seen]
  | enter d id o =>
    have := opsLine_fields "enter in ".toList id o (by decide) h
    unfold Entry.line Entry.body Entry.depth
    rw [readLine_fields d _ _ _ (by simp) this, readFields_enter]
    rfl
  | exit d id o =>
    have := opsLine_fields "exit of ".toList id o (by decide) h
    unfold Entry.line Entry.body Entry.depth
    rw [readLine_fields d _ _ _ (by simp) this, readFields_exit]
    rfl
  | value d inp fid dbl arg v w m e =>
    obtain ⟨hf, ha, hv, hw⟩ := h
    have hp : Plain ('(' :: (dec m ++ (',' :: ((if inp then [' '] else []) ++ (dec e ++ [')']))))) := by
      constructor <;> cases inp <;> simp [(dec_plain m).1, (dec_plain e).1, (dec_plain m).2, (dec_plain e).2]
    have hs : splitOn '\t' (Entry.value d inp fid dbl arg v w m e).body =
        (if inp then " - input".toList else " - output".toList) :: fid :: (if dbl then "double".toList else "float".toList) :: arg :: Probes.hexA v ::
          "->".toList :: (List.replicate d [] ++ [Probes.hexA w, '(' :: (dec m ++ (',' :: ((if inp then [' '] else []) ++ (dec e ++ [')']))))]) := by
      unfold Entry.body valueBody
      rw [splitOn_word _ _ _ (by cases inp <;> decide), splitOn_word _ _ _ hf.1, splitOn_word _ _ _ (by cases dbl <;> decide), splitOn_word _ _ _ ha.1,
        splitOn_word _ _ _ (hexA_plain v).1, splitOn_word _ _ _ (by decide), splitOn_tabs, splitOn_word _ _ _ (hexA_plain w).1, splitOn_single _ _ hp.1]
    show readLine (List.replicate d '\t' ++ _) = _
    rw [readLine_fields d _ _ _ (by cases inp <;> decide) hs, readFields, if_neg (by cases inp <;> decide), if_neg (by cases inp <;> decide),
      if_pos (by cases inp <;> simp)]
    simp only
    rw [if_pos (by cases dbl <;> simp), dropWhile_nils d _ _ (hexA_ne w)]
    simp only [fromHex_seen v hv, fromHex_seen w hw, readPair_text, Option.bind_some, Option.map_some, Entry.seen]
    cases inp <;> cases dbl <;> rfl

theorem line_newline (e : Entry) (h : e.Clean) : '\n' ∉ e.line := by
  have ho : ∀ id o, Plain id → '\n' ∉ opsLine id o := fun id o hi => by
    unfold opsLine
    simp [hi.2, (dec_plain _).2]
  unfold Entry.line
  rw [List.mem_append, not_or]
  refine ⟨fun hh => absurd (List.eq_of_mem_replicate hh) (by decide), ?_⟩
  cases e with
  | blank d => exact List.not_mem_nil
  | enter d id o => exact fun hh => (List.mem_append.1 hh).elim (by decide) (ho _ _ h)
  | exit d id o => exact fun hh => (List.mem_append.1 hh).elim (by decide) (ho _ _ h)
  | value d inp fid dbl arg v w m e =>
    obtain ⟨hf, ha, hv, hw⟩ := h
    show '\n' ∉ valueBody d inp fid dbl arg v w m e
    cases inp <;> cases dbl <;> simp [valueBody, hf.2, ha.2, (hexA_plain v).2, (hexA_plain w).2, (dec_plain m).2, (dec_plain e).2]

/-- The lines of a text can be told apart and read. -/
theorem readLog_text (es : List Entry) (h : ∀ e ∈ es, e.Clean) : readLog (text es) = some (es.map Entry.seen) := by
  have hs : splitOn '\n' (text es) = es.map Entry.line ++ [[]] := by
    induction es with
    | nil => rfl
    | cons e es ih =>
      unfold text at ih ⊢
      rw [List.flatMap_cons, List.append_assoc, List.singleton_append, splitOn_word _ _ _ (line_newline e (h e (by simp))), ih fun e he => h e (by simp [he])]
      rfl
  unfold readLog
  rw [hs, if_pos (by simp), List.dropLast_concat]
  induction es with
  | nil => rfl
  | cons e es ih =>
    rw [List.map_cons, List.mapM_cons, readLine_line e (h e (by simp))]
    have hs' : splitOn '\n' (text es) = es.map Entry.line ++ [[]] := by
      have := hs
      unfold text at this ⊢
      rw [List.flatMap_cons, List.append_assoc, List.singleton_append, splitOn_word _ _ _ (line_newline e (h e (by simp)))] at this
      simpa using this
    rw [ih (fun e he => h e (by simp [he])) hs']
    rfl

end Verif.Vfi
