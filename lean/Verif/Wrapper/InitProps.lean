import Mathlib.Tactic.Linarith
import Verif.Wrapper.Init

/-! # C48, C54: the backend command line -/

namespace Verif.Wrapper
open Verif

/-! ## What the string means -/

/-- The fields of a string separated by `d`. -/
def fields (d : Char) : List Char → List (List Char)
  | [] => [[]]
  | c :: cs => if c = d then [] :: fields d cs
    else match fields d cs with
      | [] => [[c]]
      | w :: ws => (c :: w) :: ws

/-- The non-empty fields. -/
def words (d : Char) (s : List Char) : List (List Char) := (fields d s).filter (· ≠ [])

/-- The argument vectors prescribed by a string: non-empty fields at `;`, each cut into its
non-empty fields at spaces. -/
def argvs (s : List Char) : List (List (List Char)) := (words ';' s).map (words ' ')

theorem fields_ne (d : Char) (s : List Char) : fields d s ≠ [] := by
  induction s with
  | nil => simp [fields]
  | cons c cs ih =>
    unfold fields
    split
    · simp
    · split <;> simp

theorem fields_pre (d : Char) (w s : List Char) (hw : ∀ c ∈ w, c ≠ d) :
    ∃ f fs, fields d s = f :: fs ∧ fields d (w ++ s) = (w ++ f) :: fs := by
  induction w with
  | nil =>
    rcases h : fields d s with _ | ⟨f, fs⟩
    · exact absurd h (fields_ne d s)
    · exact ⟨f, fs, rfl, h⟩
  | cons c w ih =>
    obtain ⟨f, fs, h1, h2⟩ := ih (fun c hc => hw c (by simp [hc]))
    refine ⟨f, fs, h1, ?_⟩
    rw [List.cons_append, fields, if_neg (hw c (by simp)), h2]; rfl

theorem words_lead (d : Char) (l s : List Char) (hl : ∀ c ∈ l, c = d) : words d (l ++ s) = words d s := by
  induction l with
  | nil => rfl
  | cons c l ih =>
    have := ih (fun c hc => hl c (by simp [hc]))
    unfold words at *
    rw [List.cons_append, fields, if_pos (hl c (by simp)), List.filter_cons_of_neg (by simp), this]

theorem words_last (d : Char) (w : List Char) (hw : ∀ c ∈ w, c ≠ d) (hne : w ≠ []) : words d w = [w] := by
  obtain ⟨f, fs, h1, h2⟩ := fields_pre d w [] hw
  simp only [fields, List.cons.injEq] at h1
  obtain ⟨rfl, rfl⟩ := h1
  rw [List.append_nil] at h2
  unfold words; rw [h2]; simp [hne]

theorem words_cons (d : Char) (w s : List Char) (hw : ∀ c ∈ w, c ≠ d) (hne : w ≠ []) : words d (w ++ d :: s) = w :: words d s := by
  obtain ⟨f, fs, h1, h2⟩ := fields_pre d w (d :: s) hw
  rw [fields, if_pos rfl, List.cons.injEq] at h1
  obtain ⟨rfl, rfl⟩ := h1
  unfold words; rw [h2, List.append_nil, List.filter_cons_of_pos (by simp [hne])]

/-- Any string is: delimiters, a word, then nothing or a delimiter and the rest. -/
inductive Shape (d : Char) : List Char → Prop
  | blank (l) : (∀ c ∈ l, c = d) → Shape d l
  | last (l w) : (∀ c ∈ l, c = d) → (∀ c ∈ w, c ≠ d) → w ≠ [] → Shape d (l ++ w)
  | more (l w r) : (∀ c ∈ l, c = d) → (∀ c ∈ w, c ≠ d) → w ≠ [] → Shape d (l ++ (w ++ d :: r))

theorem tw (d : Char) (l s : List Char) (hl : ∀ c ∈ l, c = d) (hs : s.head? ≠ some d) :
    (l ++ s).takeWhile (· == d) = l ∧ (l ++ s).dropWhile (· == d) = s := by
  have h1 : ∀ c ∈ l, (c == d) = true := fun c hc => by simp [hl c hc]
  rw [List.takeWhile_append_of_pos h1, List.dropWhile_append_of_pos h1]
  rcases s with _ | ⟨c, s⟩
  · simp
  · have : c ≠ d := fun h => hs (by simp [h])
    simp [this]

theorem tw' (d : Char) (w s : List Char) (hw : ∀ c ∈ w, c ≠ d) (hs : s = [] ∨ s.head? = some d) :
    (w ++ s).takeWhile (· != d) = w ∧ (w ++ s).dropWhile (· != d) = s := by
  have h1 : ∀ c ∈ w, (c != d) = true := fun c hc => by simp [hw c hc]
  rw [List.takeWhile_append_of_pos h1, List.dropWhile_append_of_pos h1]
  rcases s with _ | ⟨c, s⟩
  · simp
  · have : c = d := by rcases hs with h | h <;> simp at h; exact h
    simp [this]

theorem shape (d : Char) (s : List Char) : Shape d s := by
  have hs := (List.takeWhile_append_dropWhile (p := (· == d)) (l := s)).symm
  have hl : ∀ c ∈ s.takeWhile (· == d), c = d := by
    intro c hc
    have := List.all_eq_true.1 (List.all_takeWhile (p := (· == d)) (l := s)) c hc
    simpa using this
  have hh : (s.dropWhile (· == d)).head? ≠ some d := by
    intro h
    have := List.head?_dropWhile_not (· == d) s
    rw [h] at this; simp at this
  generalize s.takeWhile (· == d) = l at *
  generalize s.dropWhile (· == d) = t at *
  have ht := (List.takeWhile_append_dropWhile (p := (· != d)) (l := t)).symm
  have hw : ∀ c ∈ t.takeWhile (· != d), c ≠ d := by
    intro c hc
    have := List.all_eq_true.1 (List.all_takeWhile (p := (· != d)) (l := t)) c hc
    simpa using this
  have hr := List.head?_dropWhile_not (· != d) t
  subst hs
  rcases t with _ | ⟨c, t⟩
  · rw [List.append_nil]; exact .blank l hl
  · have hcd : c ≠ d := fun h => hh (by simp [h])
    have hne : (c :: t).takeWhile (· != d) ≠ [] := by simp [hcd]
    generalize (c :: t).takeWhile (· != d) = w at *
    generalize (c :: t).dropWhile (· != d) = r at *
    rw [ht]
    rcases r with _ | ⟨e, r⟩
    · rw [List.append_nil]; exact .last l w hl hw hne
    · simp at hr; subst hr; exact .more l w r hl hw hne

/-! ## `strtok_r` -/

theorem cstr_at (pre s post : List Char) (hs : nul ∉ s) : cstr (pre ++ (s ++ nul :: post)) pre.length = s := by
  unfold cstr
  rw [List.drop_left]
  exact (tw' nul s (nul :: post) (fun c hc h => hs (h ▸ hc)) (Or.inr rfl)).1

theorem set_at (a b : List Char) (c x : Char) : (a ++ c :: b).set a.length x = a ++ x :: b := by
  simp

theorem strtok_blank (d : Char) (pre l post : List Char) (hl : ∀ c ∈ l, c = d) (hn : nul ∉ l) :
    strtok d (pre ++ (l ++ nul :: post)) pre.length = none := by
  unfold strtok
  rw [cstr_at _ _ _ hn]
  have := (tw d l [] hl (by simp)).2
  rw [List.append_nil] at this
  simp [this]

theorem head_ne {d : Char} {w s : List Char} (hw : ∀ c ∈ w, c ≠ d) (hne : w ≠ []) : (w ++ s).head? ≠ some d := by
  rcases w with _ | ⟨c, w⟩
  · exact absurd rfl hne
  · simpa using hw c (by simp)

theorem strtok_last (d : Char) (pre l w post : List Char) (hl : ∀ c ∈ l, c = d) (hw : ∀ c ∈ w, c ≠ d) (hne : w ≠ []) (hn : nul ∉ l ++ w) :
    strtok d (pre ++ ((l ++ w) ++ nul :: post)) pre.length =
      some ((pre ++ l).length, pre ++ ((l ++ w) ++ nul :: post), (pre ++ l ++ w).length) := by
  unfold strtok
  rw [cstr_at _ _ _ hn]
  have hh : w.head? ≠ some d := by have := head_ne (s := []) hw hne; rwa [List.append_nil] at this
  obtain ⟨e1, e2⟩ := tw d l w hl hh
  have e3 := (tw' d w [] hw (Or.inl rfl)).1
  rw [List.append_nil] at e3
  simp only [e1, e2, e3, hne, if_false, if_true, List.length_append]

theorem strtok_more (d : Char) (pre l w r post : List Char) (hl : ∀ c ∈ l, c = d) (hw : ∀ c ∈ w, c ≠ d) (hne : w ≠ [])
    (hn : nul ∉ l ++ (w ++ d :: r)) :
    strtok d (pre ++ ((l ++ (w ++ d :: r)) ++ nul :: post)) pre.length =
      some ((pre ++ l).length, (pre ++ l ++ w ++ [nul]) ++ (r ++ nul :: post), (pre ++ l ++ w ++ [nul]).length) := by
  unfold strtok
  rw [cstr_at _ _ _ hn]
  obtain ⟨e1, e2⟩ := tw d l (w ++ d :: r) hl (head_ne hw hne)
  have e3 := (tw' d w (d :: r) hw (Or.inr rfl)).1
  have hset : (pre ++ ((l ++ (w ++ d :: r)) ++ nul :: post)).set (pre.length + l.length + w.length) nul =
      (pre ++ l ++ w ++ [nul]) ++ (r ++ nul :: post) := by
    have := set_at (pre ++ l ++ w) (r ++ nul :: post) d nul
    simp only [List.length_append] at this
    simp only [List.append_assoc, List.cons_append, List.nil_append] at this ⊢
    rw [Nat.add_assoc] at this ⊢
    exact this
  have hne' : ¬ (w ++ d :: r = []) := by simp
  have hlen : ¬ (w.length = (w ++ d :: r).length) := by simp
  simp only [e1, e2, e3, hne', if_false]
  rw [if_neg hlen]
  simp only [hset, List.length_append, List.length_cons, List.length_nil, Nat.zero_add]

/-! ## One backend -/

/-- What the string at the head of a tokenised buffer reads as: its leading delimiters and its
first word. -/
def headWord (d : Char) (s : List Char) : List Char :=
  s.takeWhile (· == d) ++ (s.dropWhile (· == d)).takeWhile (· != d)

theorem headWord_blank (d : Char) (l : List Char) (hl : ∀ c ∈ l, c = d) : headWord d l = l := by
  have h := tw d l [] hl (by simp)
  rw [List.append_nil] at h
  unfold headWord; rw [h.1, h.2]; simp

theorem headWord_last (d : Char) (l w : List Char) (hl : ∀ c ∈ l, c = d) (hw : ∀ c ∈ w, c ≠ d) (hne : w ≠ []) : headWord d (l ++ w) = l ++ w := by
  have h := tw d l w hl (by have := head_ne (s := []) hw hne; rwa [List.append_nil] at this)
  have e := (tw' d w [] hw (Or.inl rfl)).1
  rw [List.append_nil] at e
  unfold headWord; rw [h.1, h.2, e]

theorem headWord_more (d : Char) (l w r : List Char) (hl : ∀ c ∈ l, c = d) (hw : ∀ c ∈ w, c ≠ d) (hne : w ≠ []) :
    headWord d (l ++ (w ++ d :: r)) = l ++ w := by
  have h := tw d l (w ++ d :: r) hl (head_ne hw hne)
  unfold headWord; rw [h.1, h.2, (tw' d w (d :: r) hw (Or.inr rfl)).1]

theorem argLoop_spec (fuel : Nat) : ∀ (argc : Nat) (pre s post : List Char), nul ∉ s → s.length < fuel → argc ≤ maxArgs →
    if argc + (words ' ' s).length > maxArgs then argLoop argc fuel (pre ++ (s ++ nul :: post)) pre.length = .exit
    else ∃ ps s', argLoop argc fuel (pre ++ (s ++ nul :: post)) pre.length = .ok (ps, pre ++ (s' ++ nul :: post)) ∧ s'.length = s.length ∧
      ps.map (cstr (pre ++ (s' ++ nul :: post))) = words ' ' s ∧ cstr (pre ++ (s' ++ nul :: post)) pre.length = headWord ' ' s := by
  induction fuel with
  | zero => intro argc pre s post _ h; omega
  | succ fuel ih =>
    intro argc pre s post hn hfuel hargc
    cases shape ' ' s with
    | blank l hl =>
      have hw : words ' ' s = [] := by have := words_lead ' ' s [] hl; rw [List.append_nil] at this; rw [this]; rfl
      rw [hw, if_neg (by simp; omega)]
      refine ⟨[], s, ?_, rfl, rfl, ?_⟩
      · rw [argLoop, strtok_blank _ _ _ _ hl hn]
      · rw [cstr_at _ _ _ hn, headWord_blank _ _ hl]
    | last l w hl hw hne =>
      have hnl : nul ∉ l := fun h => hn (by simp [h])
      have hnw : nul ∉ w := fun h => hn (by simp [h])
      rw [words_lead _ _ _ hl, words_last _ _ hw hne, argLoop, strtok_last _ _ _ _ _ hl hw hne hn]
      simp only [List.length_singleton]
      by_cases hc : argc ≥ maxArgs
      · rw [if_pos (by omega), if_pos hc]
      · rw [if_neg (by omega)]
        simp only [if_neg hc]
        have h1 := ih (argc + 1) (pre ++ l ++ w) [] post (by simp) (by have := List.length_pos_iff.2 hne; simp only [List.length_append, List.length_nil] at hfuel ⊢; omega) (by omega)
        have : words ' ' [] = [] := rfl
        rw [this, if_neg (by simp; omega)] at h1
        obtain ⟨ps, s', e1, e2, e3, -⟩ := h1
        have : s' = [] := by simpa using e2
        subst this
        have hps : ps = [] := by simpa using e3
        subst hps
        have hbuf : pre ++ l ++ w ++ ([] ++ nul :: post) = pre ++ (l ++ w ++ nul :: post) := by simp
        rw [hbuf] at e1
        rw [e1]
        have hbuf' : pre ++ l ++ (w ++ nul :: post) = pre ++ (l ++ w ++ nul :: post) := by simp
        refine ⟨[(pre ++ l).length], l ++ w, rfl, rfl, ?_, ?_⟩
        · have := cstr_at (pre ++ l) w post hnw
          rw [hbuf'] at this
          simp only [List.map_cons, List.map_nil]
          rw [this]
        · rw [cstr_at _ _ _ hn, headWord_last _ _ _ hl hw hne]
    | more l w r hl hw hne =>
      have hnl : nul ∉ l := fun h => hn (by simp [h])
      have hnw : nul ∉ w := fun h => hn (by simp [h])
      have hnr : nul ∉ r := fun h => hn (by simp [h])
      rw [words_lead _ _ _ hl, words_cons _ _ _ hw hne, argLoop, strtok_more _ _ _ _ _ _ hl hw hne hn]
      simp only [List.length_cons]
      by_cases hc : argc ≥ maxArgs
      · rw [if_pos (by omega), if_pos hc]
      · simp only [if_neg hc]
        have h1 := ih (argc + 1) (pre ++ l ++ w ++ [nul]) r post hnr (by simp at hfuel; omega) (by omega)
        split at h1
        · rename_i hlt
          rw [if_pos (by omega), h1]; rfl
        · rename_i hlt
          rw [if_neg (by omega)]
          obtain ⟨ps, s', e1, e2, e3, -⟩ := h1
          rw [e1]
          have hbuf : pre ++ l ++ w ++ [nul] ++ (s' ++ nul :: post) = pre ++ ((l ++ (w ++ nul :: s')) ++ nul :: post) := by simp
          refine ⟨(pre ++ l).length :: ps, l ++ (w ++ nul :: s'), ?_, by simp [e2], ?_, ?_⟩
          · rw [Outcome.bind_ok, hbuf]
          · rw [List.map_cons, ← hbuf, e3]
            congr 1
            have := cstr_at (pre ++ l) w (s' ++ nul :: post) hnw
            simpa using this
          · rw [headWord_more _ _ _ _ hl hw hne]
            have := cstr_at pre (l ++ w) (s' ++ nul :: post) (by simp [hnl, hnw])
            simpa using this

theorem argsOf_spec (pre s post : List Char) (hn : nul ∉ s) :
    if (words ' ' s).length > maxArgs then argsOf (pre ++ (s ++ nul :: post)) pre.length = .exit
    else if (words ' ' s).length = maxArgs then argsOf (pre ++ (s ++ nul :: post)) pre.length = .ub
    else ∃ s', argsOf (pre ++ (s ++ nul :: post)) pre.length = .ok (words ' ' s, pre ++ (s' ++ nul :: post)) ∧ s'.length = s.length ∧
      cstr (pre ++ (s' ++ nul :: post)) pre.length = headWord ' ' s := by
  have h := argLoop_spec ((pre ++ (s ++ nul :: post)).length + 1) 0 pre s post hn (by simp; omega) (by decide)
  rw [Nat.zero_add] at h
  unfold argsOf
  split at h
  · rename_i hc
    rw [if_pos hc, h]; rfl
  · rename_i hc
    rw [if_neg hc]
    obtain ⟨ps, s', e1, e2, e3, e4⟩ := h
    have hlen : ps.length = (words ' ' s).length := by rw [← e3, List.length_map]
    rw [e1, Outcome.bind_ok]
    simp only [hlen]
    split
    · rename_i he
      rw [if_neg (by omega)]
    · rename_i he
      rw [if_pos (by omega), e3]
      exact ⟨s', rfl, e2, e4⟩

/-! ## All backends -/

variable {σ B : Type}

/-- Loading a list of argument vectors one after the other. -/
def loadAll (load : List (List Char) → σ → Outcome (B × σ)) : List (List (List Char)) → List B → σ → Outcome (List B × σ)
  | [], bs, s => .ok (bs, s)
  | argv :: rest, bs, s =>
    if argv.length > 256 then .exit
    else if argv.length = 256 then .ub
    else if bs.length = 16 then .exit
    else load argv s >>= fun r => loadAll load rest (bs ++ [r.1]) r.2

/-- What is left of the environment string: leading semicolons, then leading spaces and the first
word of the first backend. -/
def childView (s : List Char) : List Char :=
  s.takeWhile (· == ';') ++ headWord ' ' ((s.dropWhile (· == ';')).takeWhile (· != ';'))

theorem backendLoop_spec (load : List (List Char) → σ → Outcome (B × σ)) (fuel : Nat) : ∀ (pre s post : List Char) (bs : List B) (st : σ), nul ∉ s →
    s.length < fuel →
    ∃ s', s'.length = s.length ∧
      backendLoop load fuel (pre ++ (s ++ nul :: post)) pre.length bs st =
        (loadAll load (argvs s) bs st >>= fun r => .ok (r.1, pre ++ (s' ++ nul :: post), r.2)) ∧
      ((∃ r, loadAll load (argvs s) bs st = .ok r) → cstr (pre ++ (s' ++ nul :: post)) pre.length = childView s) := by
  induction fuel with
  | zero => intro pre s post bs st _ h; omega
  | succ fuel ih =>
    intro pre s post bs st hn hfuel
    cases shape ';' s with
    | blank l hl =>
      have hw : words ';' s = [] := by have := words_lead ';' s [] hl; rw [List.append_nil] at this; rw [this]; rfl
      refine ⟨s, rfl, ?_, fun _ => ?_⟩
      · rw [backendLoop, strtok_blank _ _ _ _ hl hn]
        unfold argvs; rw [hw]; rfl
      · rw [cstr_at _ _ _ hn]
        have h := tw ';' s [] hl (by simp)
        rw [List.append_nil] at h
        unfold childView; rw [h.1, h.2]; simp [headWord]
    | last l w hl hw hne =>
      have hnl : nul ∉ l := fun h => hn (by simp [h])
      have hnw : nul ∉ w := fun h => hn (by simp [h])
      have hargs : argvs (l ++ w) = [words ' ' w] := by unfold argvs; rw [words_lead _ _ _ hl, words_last _ _ hw hne]; rfl
      have hcv : childView (l ++ w) = l ++ headWord ' ' w := by
        have h := tw ';' l w hl (by have := head_ne (s := []) hw hne; rwa [List.append_nil] at this)
        have e := (tw' ';' w [] hw (Or.inl rfl)).1
        rw [List.append_nil] at e
        unfold childView; rw [h.1, h.2, e]
      have hA := argsOf_spec (pre ++ l) w post hnw
      have hbuf : pre ++ l ++ (w ++ nul :: post) = pre ++ (l ++ w ++ nul :: post) := by simp
      rw [hbuf] at hA
      rw [hargs, hcv]
      have hmax : maxArgs = 256 := rfl
      simp only [backendLoop, strtok_last _ _ _ _ _ hl hw hne hn, loadAll]
      by_cases h1 : (words ' ' w).length > 256
      · rw [if_pos (by omega)] at hA
        rw [hA, if_pos h1]
        exact ⟨l ++ w, rfl, rfl, fun ⟨r, hr⟩ => by cases hr⟩
      · rw [if_neg (by omega)] at hA
        rw [if_neg h1]
        by_cases h2 : (words ' ' w).length = 256
        · rw [if_pos (by omega)] at hA
          rw [hA, if_pos h2]
          exact ⟨l ++ w, rfl, rfl, fun ⟨r, hr⟩ => by cases hr⟩
        · rw [if_neg (by omega)] at hA
          rw [if_neg h2]
          obtain ⟨s', e1, e2, e3⟩ := hA
          rw [e1, Outcome.bind_ok]
          have hmb : maxBackends = 16 := rfl
          simp only [hmb]
          refine ⟨l ++ s', by simp [e2], ?_, fun _ => ?_⟩
          · split
            · rfl
            · rcases load (words ' ' w) st with ⟨r⟩ | _ | _
              · simp only [Outcome.bind_ok]
                obtain ⟨t, f1, f2, -⟩ := ih (pre ++ l ++ s') [] post (bs ++ [r.1]) r.2 (by simp) (by have := List.length_pos_iff.2 hne; simp only [List.length_append, List.length_nil] at hfuel ⊢; omega)
                have : t = [] := by simpa using f1
                subst this
                have hb2 : pre ++ l ++ s' ++ ([] ++ nul :: post) = pre ++ l ++ (s' ++ nul :: post) := by simp
                have hb3 : (pre ++ l ++ s').length = (pre ++ l ++ w).length := by simp [e2]
                rw [hb2, hb3] at f2
                rw [f2]
                show (loadAll load [] _ _ >>= _) = _
                simp [loadAll]
              · rfl
              · rfl
          · have hh : ∀ x, cstr (pre ++ l ++ x) (pre ++ l).length = headWord ' ' w → cstr (pre ++ (l ++ x)) pre.length = l ++ headWord ' ' w := by
              intro x hx
              unfold cstr at *
              rw [List.drop_left] at *
              have : ∀ c ∈ l, (c != nul) = true := by intro c hc; simp; rintro rfl; exact hnl hc
              rw [List.takeWhile_append_of_pos this, hx]
            have := hh _ e3
            simpa using this
    | more l w r hl hw hne =>
      have hnl : nul ∉ l := fun h => hn (by simp [h])
      have hnw : nul ∉ w := fun h => hn (by simp [h])
      have hnr : nul ∉ r := fun h => hn (by simp [h])
      have hargs : argvs (l ++ (w ++ ';' :: r)) = words ' ' w :: argvs r := by
        unfold argvs; rw [words_lead _ _ _ hl, words_cons _ _ _ hw hne]; rfl
      have hcv : childView (l ++ (w ++ ';' :: r)) = l ++ headWord ' ' w := by
        have h := tw ';' l (w ++ ';' :: r) hl (head_ne hw hne)
        unfold childView; rw [h.1, h.2, (tw' ';' w (';' :: r) hw (Or.inr rfl)).1]
      have hA := argsOf_spec (pre ++ l) w (r ++ nul :: post) hnw
      have hbuf : pre ++ l ++ (w ++ nul :: (r ++ nul :: post)) = pre ++ l ++ w ++ [nul] ++ (r ++ nul :: post) := by simp
      rw [hbuf] at hA
      rw [hargs, hcv]
      have hmax : maxArgs = 256 := rfl
      simp only [backendLoop, strtok_more _ _ _ _ _ _ hl hw hne hn, loadAll]
      by_cases h1 : (words ' ' w).length > 256
      · rw [if_pos (by omega)] at hA
        rw [hA, if_pos h1]
        exact ⟨l ++ (w ++ ';' :: r), rfl, rfl, fun ⟨r, hr⟩ => by cases hr⟩
      · rw [if_neg (by omega)] at hA
        rw [if_neg h1]
        by_cases h2 : (words ' ' w).length = 256
        · rw [if_pos (by omega)] at hA
          rw [hA, if_pos h2]
          exact ⟨l ++ (w ++ ';' :: r), rfl, rfl, fun ⟨r, hr⟩ => by cases hr⟩
        · rw [if_neg (by omega)] at hA
          rw [if_neg h2]
          obtain ⟨s', e1, e2, e3⟩ := hA
          rw [e1, Outcome.bind_ok]
          have hmb : maxBackends = 16 := rfl
          simp only [hmb]
          by_cases h3 : bs.length = 16
          · simp only [if_pos h3]
            exact ⟨l ++ (w ++ ';' :: r), rfl, rfl, fun ⟨r, hr⟩ => by cases hr⟩
          · simp only [if_neg h3]
            have hh : ∀ x, cstr (pre ++ l ++ x) (pre ++ l).length = headWord ' ' w → cstr (pre ++ (l ++ x)) pre.length = l ++ headWord ' ' w := by
              intro x hx
              unfold cstr at *
              rw [List.drop_left] at *
              have : ∀ c ∈ l, (c != nul) = true := by intro c hc; simp; rintro rfl; exact hnl hc
              rw [List.takeWhile_append_of_pos this, hx]
            rcases load (words ' ' w) st with ⟨rl⟩ | _ | _
            · simp only [Outcome.bind_ok]
              obtain ⟨t, f1, f2, -⟩ := ih (pre ++ l ++ s' ++ [nul]) r post (bs ++ [rl.1]) rl.2 hnr (by simp at hfuel; omega)
              have hb2 : pre ++ l ++ s' ++ [nul] ++ (r ++ nul :: post) = pre ++ l ++ (s' ++ nul :: (r ++ nul :: post)) := by simp
              have hb3 : (pre ++ l ++ s' ++ [nul]).length = (pre ++ l ++ w ++ [nul]).length := by simp [e2]
              have hb4 : pre ++ l ++ s' ++ [nul] ++ (t ++ nul :: post) = pre ++ (l ++ (s' ++ nul :: t) ++ nul :: post) := by simp
              rw [hb2, hb3, hb4] at f2
              rw [f2]
              refine ⟨l ++ (s' ++ nul :: t), by simp [e2, f1], rfl, fun _ => ?_⟩
              -- the words of the first backend are not touched any more
              have hpre : cstr (pre ++ l ++ (s' ++ nul :: (t ++ nul :: post))) (pre ++ l).length = headWord ' ' w := by
                have stop : ∀ (a b b' : List Char), (a ++ nul :: b).takeWhile (· != nul) = (a ++ nul :: b').takeWhile (· != nul) := by
                  intro a b b'
                  induction a with
                  | nil => simp
                  | cons c a iha =>
                    simp only [List.cons_append, List.takeWhile_cons]
                    split
                    · rw [iha]
                    · rfl
                unfold cstr at e3 ⊢
                rw [List.drop_left] at e3 ⊢
                rw [stop s' _ (r ++ nul :: post)]; exact e3
              have := hh _ hpre
              simpa using this
            · exact ⟨l ++ (w ++ ';' :: r), rfl, rfl, fun ⟨r, hr⟩ => by cases hr⟩
            · exact ⟨l ++ (w ++ ';' :: r), rfl, rfl, fun ⟨r, hr⟩ => by cases hr⟩

/-! ## C48 -/

/-- **C48, tokenisation.**  Start-up loads exactly the argument vectors the string prescribes, in
order, on every string; then it runs the checks. -/
theorem C48_start_up (load : List (List Char) → σ → Outcome (B × σ)) (check : List B → Outcome Unit) (e : Env) (s : σ)
    (src : List Char) (hsrc : source e = .ok src) (hn : nul ∉ src) :
    vfcInit load check e s = (loadAll load (argvs src) [] s >>= fun r =>
      if r.1 = [] then .exit else check r.1 >>= fun _ => .ok (r.1, e.backends.map fun _ => childView src, r.2)) := by
  obtain ⟨s', h1, h2, h3⟩ := backendLoop_spec load ((src ++ [nul]).length + 1) [] src [] [] s hn (by simp; omega)
  simp only [List.nil_append, List.length_nil] at h2 h3
  unfold vfcInit
  rw [hsrc, Outcome.bind_ok]
  simp only [h2]
  rcases hl : loadAll load (argvs src) [] s with ⟨r⟩ | _ | _
  · simp only [Outcome.bind_ok, h3 ⟨r, hl⟩]
  · rfl
  · rfl

/-- **C48, configuration file.**  Without `VFC_BACKENDS`, a file whose first line is `line` (what
follows it does not matter) starts the process as `VFC_BACKENDS=line` would, and leaves the
environment alone; an empty file, an unreadable one and no file at all stop it. -/
theorem C48_from_file (load : List (List Char) → σ → Outcome (B × σ)) (check : List B → Outcome Unit) (s : σ)
    (line : List Char) (hl : '\n' ∉ line) (rest : List Char) (text : List Char)
    (ht : text = line ++ '\n' :: rest ∨ text = line ∧ line ≠ []) :
    vfcInit load check ⟨none, some (some text)⟩ s =
      (vfcInit load check ⟨some line, some (some text)⟩ s >>= fun r => .ok (r.1, none, r.2.2)) := by
  have e1 : ∀ r : List Char, (line ++ '\n' :: r).takeWhile (· != '\n') = line := by
    intro r
    rw [List.takeWhile_append_of_pos (fun c hc => by simp; rintro rfl; exact hl hc)]
    simp
  have e2 : line.takeWhile (· != '\n') = line :=
    by
      have := List.takeWhile_append_of_pos (p := (· != '\n')) (l₁ := line) (l₂ := [])
        (fun c hc => by simp; rintro rfl; exact hl hc)
      simpa using this
  have hs : source ⟨none, some (some text)⟩ = .ok line := by
    rcases ht with rfl | ⟨rfl, hne⟩
    · unfold source
      cases h : line ++ '\n' :: rest with
      | nil => simp at h
      | cons c t => simp only; rw [← h, e1]
    · unfold source
      cases h : text with
      | nil => exact absurd h hne
      | cons c t => simp only; rw [← h, e2]
  have hs' : source ⟨some line, some (some text)⟩ = .ok line := rfl
  unfold vfcInit
  rw [hs, hs']
  simp only [Outcome.bind_ok, Option.map_none, Option.map_some]
  rcases backendLoop load _ _ 0 [] s with ⟨r⟩ | _ | _
  · simp only [Outcome.bind_ok]
    split
    · rfl
    · cases check r.1 <;> rfl
  · rfl
  · rfl

theorem C48_no_configuration (load : List (List Char) → σ → Outcome (B × σ)) (check : List B → Outcome Unit) (s : σ)
    (f : Option (Option (List Char))) (hf : f = none ∨ f = some none ∨ f = some (some [])) :
    vfcInit load check ⟨none, f⟩ s = .exit := by
  rcases hf with rfl | rfl | rfl <;> rfl

example : source ⟨none, some (some "a.so -x\nb.so".toList)⟩ = .ok "a.so -x".toList := by decide

theorem loadAll_ok (load : List (List Char) → σ → Outcome (B × σ)) (as : List (List (List Char))) : ∀ (bs : List B) (s : σ) (r : List B × σ),
    bs.length ≤ 16 → loadAll load as bs s = .ok r →
    ∃ (cs : List B) (st : Nat → σ), r.1 = bs ++ cs ∧ cs.length = as.length ∧ st 0 = s ∧ st as.length = r.2 ∧ bs.length + as.length ≤ 16 ∧
      (∀ a ∈ as, a.length < 256) ∧
      ∀ (i : Nat) (a : List (List Char)), as[i]? = some a → ∃ b, cs[i]? = some b ∧ load a (st i) = .ok (b, st (i + 1)) := by
  induction as with
  | nil =>
    intro bs s r hbs h
    cases h
    exact ⟨[], fun _ => s, by simp, rfl, rfl, rfl, by simpa using hbs, by simp, by simp⟩
  | cons a as ih =>
    intro bs s r hbs h
    rw [loadAll] at h
    split at h
    · cases h
    · split at h
      · cases h
      · split at h
        · cases h
        · rcases hl : load a s with ⟨⟨b, s1⟩⟩ | _ | _
          · rw [hl, Outcome.bind_ok] at h
            obtain ⟨cs, st, e1, e2, e3, e4, e5, e6, e7⟩ := ih (bs ++ [b]) s1 r (by simp; omega) h
            refine ⟨b :: cs, fun i => match i with | 0 => s | i + 1 => st i, by simp [e1], by simp [e2], rfl, e4,
              by simp at e5 ⊢; omega, ?_, ?_⟩
            · intro a' ha'
              rcases List.mem_cons.1 ha' with rfl | h'
              · omega
              · exact e6 a' h'
            · intro i a' hi
              cases i with
              | zero => simp at hi; subst hi; exact ⟨b, by simp, by simpa [e3] using hl⟩
              | succ i => simpa using e7 i a' (by simpa using hi)
          · rw [hl] at h; cases h
          · rw [hl] at h; cases h

/-- **C48, what reaches the backends.**  When start-up succeeds there are between 1 and 16 backends,
one per non-empty field at `;`, and the i-th was given exactly the words of that field, in
order, fewer than 256 of them. -/
theorem C48_arguments (load : List (List Char) → σ → Outcome (B × σ)) (check : List B → Outcome Unit) (e : Env) (s s' : σ)
    (src : List Char) (hsrc : source e = .ok src) (hn : nul ∉ src) (bs : List B) (env : Option (List Char))
    (hok : vfcInit load check e s = .ok (bs, env, s')) :
    bs.length = (argvs src).length ∧ 1 ≤ bs.length ∧ bs.length ≤ 16 ∧ check bs = .ok () ∧ ∃ st : Nat → σ, st 0 = s ∧ st bs.length = s' ∧
      ∀ (i : Nat) (a : List (List Char)), (argvs src)[i]? = some a → a.length < 256 ∧ ∃ b, bs[i]? = some b ∧ load a (st i) = .ok (b, st (i + 1)) := by
  rw [C48_start_up load check e s src hsrc hn] at hok
  rcases hl : loadAll load (argvs src) [] s with ⟨r⟩ | _ | _
  · rw [hl, Outcome.bind_ok] at hok
    split at hok
    · cases hok
    · rename_i hne
      rcases hc : check r.1 with ⟨u⟩ | _ | _
      · rw [hc, Outcome.bind_ok] at hok
        simp only [Outcome.ok.injEq, Prod.mk.injEq] at hok
        obtain ⟨rfl, -, rfl⟩ := hok
        obtain ⟨cs, st, e1, e2, e3, e4, e5, e6, e7⟩ := loadAll_ok load _ _ _ _ (by simp) hl
        rw [List.nil_append] at e1
        subst e1
        refine ⟨e2, List.length_pos_iff.2 hne, ?_, hc, st, e3, by rw [e2]; exact e4, ?_⟩
        · simp at e5; omega
        · intro i a ha
          exact ⟨e6 a (List.mem_of_getElem? ha), e7 i a ha⟩
      · rw [hc] at hok; cases hok
      · rw [hc] at hok; cases hok
  · rw [hl] at hok; cases hok
  · rw [hl] at hok; cases hok

/-- **C48, no memory corruption** unless a backend is given exactly 256 words.  Missing: that case,
`C48_256_arguments`. -/
theorem C48_defined_partial (load : List (List Char) → σ → Outcome (B × σ)) (check : List B → Outcome Unit) (e : Env) (s : σ)
    (src : List Char) (hsrc : source e = .ok src) (hn : nul ∉ src) (hl : ∀ a s, (load a s).Defined) (hc : ∀ bs, (check bs).Defined)
    (h256 : ∀ a ∈ argvs src, a.length ≠ 256) : (vfcInit load check e s).Defined := by
  have hA : ∀ as : List (List (List Char)), (∀ a ∈ as, a.length ≠ 256) → ∀ bs s, (loadAll load as bs s).Defined := by
    intro as
    induction as with
    | nil => intro _ bs s; trivial
    | cons a as ih =>
      intro h bs s
      rw [loadAll]
      split
      · trivial
      · rw [if_neg (h a (by simp))]
        split
        · trivial
        · have := hl a s
          rcases hr : load a s with ⟨r⟩ | _ | _
          · exact ih (fun a' ha => h a' (by simp [ha])) _ _
          · trivial
          · rw [hr] at this; exact this
  rw [C48_start_up load check e s src hsrc hn]
  have := hA _ h256 [] s
  rcases hr : loadAll load (argvs src) [] s with ⟨r⟩ | _ | _
  · rw [Outcome.bind_ok]
    split
    · trivial
    · have := hc r.1
      rcases hk : check r.1 with ⟨u⟩ | _ | _
      · trivial
      · trivial
      · rw [hk] at this; exact this
  · trivial
  · rw [hr] at this; exact this

/-- **C48, counterexample**: 256 words make the code store out of the bounds of the argument array;
257 are refused. -/
theorem C48_256_arguments (load : List (List Char) → σ → Outcome (B × σ)) (check : List B → Outcome Unit) (s : σ) :
    vfcInit load check ⟨some ((List.replicate 256 ['a', ' ']).flatten), none⟩ s = .ub ∧
    vfcInit load check ⟨some ((List.replicate 257 ['a', ' ']).flatten), none⟩ s = .exit := by
  have hw : ∀ n, words ' ' ((List.replicate n ['a', ' ']).flatten) = List.replicate n ['a'] := by
    intro n
    induction n with
    | zero => rfl
    | succ n ih =>
      rw [List.replicate_succ, List.flatten_cons, List.replicate_succ]
      have := words_cons ' ' ['a'] ((List.replicate n ['a', ' ']).flatten) (by decide) (by decide)
      simp only [List.cons_append, List.nil_append] at this ⊢
      rw [this, ih]
  have hs : ∀ n, ∀ c ∈ (List.replicate n ['a', ' ']).flatten, c = 'a' ∨ c = ' ' := by
    intro n c hc
    obtain ⟨l, hl, hc⟩ := List.mem_flatten.1 hc
    rw [(List.mem_replicate.1 hl).2] at hc
    simpa using hc
  have hv : ∀ n, argvs ((List.replicate (n + 1) ['a', ' ']).flatten) = [List.replicate (n + 1) ['a']] := by
    intro n
    unfold argvs
    rw [words_last ';' _ (by
      intro c hc h
      rcases hs _ c hc with h' | h' <;> subst h' <;> exact absurd h (by decide)) (by simp [List.replicate_succ])]
    rw [List.map_singleton, hw]
  have hn : ∀ n, nul ∉ (List.replicate n ['a', ' ']).flatten := by
    intro n h
    rcases hs _ _ h with h' | h' <;> exact absurd h' (by decide)
  constructor
  · rw [C48_start_up load check _ s _ rfl (hn _), hv 255, loadAll, List.length_replicate, if_neg (by decide), if_pos rfl]; rfl
  · rw [C48_start_up load check _ s _ rfl (hn _), hv 256, loadAll, List.length_replicate, if_pos (by decide)]; rfl

/-- **C48, counterexample**: a field made of spaces is not ignored, it is loaded as a backend
without name (`dlopen(NULL)`). -/
theorem C48_blank_field : argvs "a; ;b".toList = [[['a']], [], [['b']]] := by decide

/-- More than 16 backends are refused. -/
theorem C48_too_many (load : List (List Char) → σ → Outcome (B × σ)) (check : List B → Outcome Unit) (e : Env) (s : σ)
    (src : List Char) (hsrc : source e = .ok src) (hn : nul ∉ src) (h : 16 < (argvs src).length) :
    ∀ r, vfcInit load check e s ≠ .ok r := by
  rintro ⟨bs, env, s'⟩ hok
  have := C48_arguments load check e s s' src hsrc hn bs env hok
  omega

/-- The string for a list of argument vectors. -/
def command (as : List (List (List Char))) : List Char := List.intercalate [';'] (as.map fun a => List.intercalate [' '] a)

theorem words_intercalate (d : Char) (ws : List (List Char)) (h : ∀ w ∈ ws, w ≠ [] ∧ ∀ c ∈ w, c ≠ d) : words d (List.intercalate [d] ws) = ws := by
  induction ws with
  | nil => rfl
  | cons w ws ih =>
    obtain ⟨hne, hw⟩ := h w (by simp)
    have ih' := ih (fun w' hw' => h w' (by simp [hw']))
    rcases ws with _ | ⟨w', ws⟩
    · simp [List.intercalate, words_last d w hw hne]
    · have : List.intercalate [d] (w :: w' :: ws) = w ++ d :: List.intercalate [d] (w' :: ws) := by
        simp [List.intercalate, List.intersperse]
      rw [this, words_cons d w _ hw hne, ih']

/-- **C48, round trip**: any list of argument vectors made of words without space, semicolon and NUL
can be conveyed. -/
theorem C48_round_trip (as : List (List (List Char))) (h : ∀ a ∈ as, a ≠ [] ∧ ∀ w ∈ a, w ≠ [] ∧ ∀ c ∈ w, c ≠ ' ' ∧ c ≠ ';') :
    argvs (command as) = as := by
  have h1 : ∀ a ∈ as, words ' ' (List.intercalate [' '] a) = a := fun a ha =>
    words_intercalate ' ' a (fun w hw => ⟨((h a ha).2 w hw).1, fun c hc => (((h a ha).2 w hw).2 c hc).1⟩)
  have hmem : ∀ (a : List (List Char)) (c : Char), c ∈ List.intercalate [' '] a → c = ' ' ∨ ∃ w ∈ a, c ∈ w := by
    intro a
    induction a with
    | nil => intro c hc; simp [List.intercalate] at hc
    | cons w a ih =>
      intro c hc
      rcases a with _ | ⟨w', a⟩
      · simp [List.intercalate] at hc; exact Or.inr ⟨w, by simp, hc⟩
      · have : List.intercalate [' '] (w :: w' :: a) = w ++ ' ' :: List.intercalate [' '] (w' :: a) := by
          simp [List.intercalate, List.intersperse]
        rw [this, List.mem_append, List.mem_cons] at hc
        rcases hc with hc | hc | hc
        · exact Or.inr ⟨w, by simp, hc⟩
        · exact Or.inl hc
        · rcases ih c hc with h | ⟨w0, hw0, hc0⟩
          · exact Or.inl h
          · exact Or.inr ⟨w0, by simp [List.mem_cons.1 hw0], hc0⟩
  unfold argvs command
  rw [words_intercalate ';' _ (by
    intro t ht
    obtain ⟨a, ha, rfl⟩ := List.mem_map.1 ht
    constructor
    · intro h0
      have := h1 a ha
      rw [h0] at this
      exact (h a ha).1 this.symm
    · intro c hc
      rcases hmem a c hc with rfl | ⟨w, hw, hcw⟩
      · decide
      · exact (((h a ha).2 w hw).2 c hcw).2), List.map_map]
  conv_rhs => rw [← List.map_id as]
  exact List.map_congr_left (fun a ha => h1 a ha)

example : argvs "libinterflop_mca.so --precision-binary64=10  --mode mca;;libinterflop_ieee.so".toList =
    [["libinterflop_mca.so".toList, "--precision-binary64=10".toList, "--mode".toList, "mca".toList], ["libinterflop_ieee.so".toList]] := by
  decide

/-! ## C54 -/

/-- **C54, what child processes inherit.**  After a successful start-up configured through
`VFC_BACKENDS`, the variable reads as the first word of the first backend (with the
delimiters before it): its options and all other backends are gone. -/
theorem C54_child_env (load : List (List Char) → σ → Outcome (B × σ)) (check : List B → Outcome Unit) (fromFile : Option (Option (List Char))) (s s' : σ)
    (src : List Char) (hn : nul ∉ src) (bs : List B) (env : Option (List Char))
    (hok : vfcInit load check ⟨some src, fromFile⟩ s = .ok (bs, env, s')) : env = some (childView src) := by
  rw [C48_start_up load check ⟨some src, fromFile⟩ s src rfl hn] at hok
  rcases hl : loadAll load (argvs src) [] s with ⟨r⟩ | _ | _
  · rw [hl, Outcome.bind_ok] at hok
    split at hok
    · cases hok
    · rcases hc : check r.1 with ⟨u⟩ | _ | _
      · rw [hc, Outcome.bind_ok] at hok
        simp only [Outcome.ok.injEq, Prod.mk.injEq, Option.map_some] at hok
        exact hok.2.1.symm
      · rw [hc] at hok; cases hok
      · rw [hc] at hok; cases hok
  · rw [hl] at hok; cases hok
  · rw [hl] at hok; cases hok

/-- **C54, counterexample**: a child of this process runs another backend configuration. -/
theorem C54_lost (load : List (List Char) → σ → Outcome (B × σ)) (check : List B → Outcome Unit) (s s' : σ) (bs : List B) (env : Option (List Char))
    (hok : vfcInit load check ⟨some "mca.so --mode rr;ieee.so".toList, none⟩ s = .ok (bs, env, s')) :
    env = some "mca.so".toList ∧ argvs "mca.so".toList ≠ argvs "mca.so --mode rr;ieee.so".toList := by
  refine ⟨?_, by decide⟩
  rw [C54_child_env load check none s s' _ (by decide) bs env hok]
  decide

/-- **C54**, the part that holds: a configuration of one word is inherited unchanged.  Missing:
configurations with options or several backends. -/
theorem C54_one_word_partial (w : List Char) (h : ∀ c ∈ w, c ≠ ' ' ∧ c ≠ ';') : childView w = w := by
  have h1 : ∀ d, (∀ c ∈ w, c ≠ d) → w.takeWhile (· == d) = [] ∧ w.dropWhile (· == d) = w ∧ w.takeWhile (· != d) = w := by
    intro d hd
    have e := (tw' d w [] hd (Or.inl rfl)).1
    rw [List.append_nil] at e
    rcases w with _ | ⟨c, w⟩
    · simp
    · have := hd c (by simp)
      exact ⟨by simp [this], by simp [this], e⟩
  obtain ⟨a1, a2, a3⟩ := h1 ';' (fun c hc => (h c hc).2)
  obtain ⟨b1, b2, b3⟩ := h1 ' ' (fun c hc => (h c hc).1)
  unfold childView headWord
  rw [a1, a2, a3, b1, b2, b3]; rfl

/-- `VFC_BACKENDS_FROM_FILE` is inherited: the next process reads the same file. -/
theorem C54_from_file (load : List (List Char) → σ → Outcome (B × σ)) (check : List B → Outcome Unit) (f : Option (Option (List Char))) (s s' : σ)
    (src : List Char) (hsrc : source ⟨none, f⟩ = .ok src) (hn : nul ∉ src) (bs : List B) (env : Option (List Char))
    (hok : vfcInit load check ⟨none, f⟩ s = .ok (bs, env, s')) : env = none := by
  rw [C48_start_up load check ⟨none, f⟩ s src hsrc hn] at hok
  rcases hl : loadAll load (argvs src) [] s with ⟨r⟩ | _ | _
  · rw [hl, Outcome.bind_ok] at hok
    split at hok
    · cases hok
    · rcases hc : check r.1 with ⟨u⟩ | _ | _
      · rw [hc, Outcome.bind_ok] at hok
        simp only [Outcome.ok.injEq, Prod.mk.injEq, Option.map_none] at hok
        exact hok.2.1.symm
      · rw [hc] at hok; cases hok
      · rw [hc] at hok; cases hok
  · rw [hl] at hok; cases hok
  · rw [hl] at hok; cases hok

end Verif.Wrapper
