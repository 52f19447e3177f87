import Verif.Cli.Argp
import Mathlib.Tactic.SplitIfs
import Mathlib.Data.List.TakeWhile

/-!
# C103: what a command line says

`Reads` is the grammar of command lines: options, each spelt in one of the documented ways, and other words, in any order.  `scan` accepts
exactly the command lines with a reading, and finds what the reading says.
-/

namespace Verif.Cli
open Verif

/-! ## The grammar -/

/-- A name means the option of that name, or the only one whose name begins so. -/
def Names (t : List Entry) (n : Word) (e : Entry) : Prop :=
  e ∈ t ∧ (e.opt.name = n ∨ ((∀ e' ∈ t, e'.opt.name ≠ n) ∧ n <+: e.opt.name ∧ ∀ e' ∈ t, n <+: e'.opt.name → e' = e))

/-- A letter means the option whose key is that printing character. -/
def Letter (t : List Entry) (c : Char) (e : Entry) : Prop :=
  e ∈ t ∧ e.opt.key = (c.toNat : Int) ∧ 32 ≤ c.toNat ∧ c.toNat ≤ 126

/-- Letters after one hyphen: flags, then perhaps an option with its value, in the same word or in the next. -/
inductive Letters (t : List Entry) : Word → List Word → List Ev → Prop
  | nil : Letters t [] [] []
  | flag {c e cs us es} : Letter t c e → e.opt.has = .none → Letters t cs us es → Letters t (c :: cs) us (.opt e none :: es)
  | glued {c e v} : Letter t c e → e.opt.has = .required → v ≠ [] → Letters t (c :: v) [] [.opt e (some v)]
  | apart {c e} (v : Word) : Letter t c e → e.opt.has = .required → Letters t [c] [v] [.opt e (some v)]

/-- The words that spell options, and the options. -/
inductive Spelt (t : List Entry) : List Word → List Ev → Prop
  /-- `--name` -/
  | flag {n e} : Names t n e → e.opt.has ≠ .required → Spelt t ['-' :: '-' :: n] [.opt e none]
  /-- `--name=value` -/
  | value {n e} (v : Word) : Names t n e → e.opt.has ≠ .none → Spelt t ['-' :: '-' :: (n ++ '=' :: v)] [.opt e (some v)]
  /-- `--name value` -/
  | apart {n e} (v : Word) : Names t n e → e.opt.has = .required → Spelt t ['-' :: '-' :: n, v] [.opt e (some v)]
  /-- `-xyz` -/
  | letters {cs us es} : cs ≠ [] → Letters t cs us es → Spelt t (('-' :: cs) :: us) es

/-- Words that are no options: those that do not begin with a hyphen, and a hyphen alone. -/
def Plain (w : Word) : Prop := w = ['-'] ∨ ∀ u, w ≠ '-' :: u

/-- The words of a command line, the options in order, the other words in order.  Two hyphens alone end the options; where `POSIXLY_CORRECT` is set,
so does the first other word. -/
inductive Reads (posix : Bool) (t : List Entry) : List Word → List Ev → List Word → Prop
  | nil : Reads posix t [] [] []
  | stop (ws) : Reads posix t (['-', '-'] :: ws) [] ws
  | stray {w ws os ss} : posix = false → Plain w → Reads posix t ws os ss → Reads posix t (w :: ws) os (w :: ss)
  | rest {w ws} : posix = true → Plain w → Reads posix t (w :: ws) [] (w :: ws)
  | option {us es ws os ss} : Spelt t us es → Reads posix t ws os ss → Reads posix t (us ++ ws) (es ++ os) ss

/-- What a table must be for names and letters to mean something. -/
structure Good (t : List Entry) : Prop where
  names : ∀ e ∈ t, ∀ e' ∈ t, e.opt.name = e'.opt.name → e = e'
  keys : ∀ e ∈ t, ∀ e' ∈ t, e.group = e'.group → e.opt.key = e'.opt.key → e = e'
  shorts : ∀ e ∈ t, ∀ e' ∈ t, isShort e.opt.key = true → e.opt.key = e'.opt.key → e = e'
  named : ∀ e ∈ t, e.opt.name ≠ []
  noEq : ∀ e ∈ t, '=' ∉ e.opt.name
  noHyphen : ∀ e ∈ t, e.opt.key ≠ 45
  optional : ∀ e ∈ t, e.opt.has = .optional → isShort e.opt.key = false
  two : ∃ e ∈ t, ∃ e' ∈ t, e ≠ e'

/-! ## The search -/

variable {t : List Entry}

theorem plain_iff (w : Word) : isPlain w = true ↔ Plain w := by
  unfold Plain
  match w with
  | [] => simp [isPlain]
  | [c] =>
    simp only [isPlain, true_iff]
    by_cases h : c = '-'
    · exact Or.inl (by rw [h])
    · exact Or.inr fun u hu => h (List.cons.inj hu).1
  | c :: d :: u =>
    by_cases h : c = '-'
    · subst h; simp [isPlain]
    · have : isPlain (c :: d :: u) = true := by
        unfold isPlain
        split
        · rename_i h'; exact absurd (List.cons.inj h').1 h
        · rfl
      simp only [this, true_iff]
      exact Or.inr fun u hu => h (List.cons.inj hu).1

theorem findLong_iff (g : Good t) (n : Word) (e : Entry) : findLong t n = some e ↔ Names t n e := by
  unfold findLong Names
  cases hf : t.find? fun e => e.opt.name == n with
  | some e0 =>
    have h0 := List.find?_some hf
    have m0 := List.mem_of_find?_eq_some hf
    simp only [beq_iff_eq] at h0
    constructor
    · rintro h; cases h; exact ⟨m0, Or.inl h0⟩
    · rintro ⟨hm, h | ⟨h, -⟩⟩
      · rw [g.names e0 m0 e hm (h0.trans h.symm)]
      · exact absurd h0 (h e0 m0)
  | none =>
    have hno : ∀ e' ∈ t, e'.opt.name ≠ n := fun e' he' => by simpa using List.find?_eq_none.1 hf e' he'
    have hmem : ∀ e', e' ∈ t.filter (fun e => n.isPrefixOf e.opt.name) ↔ e' ∈ t ∧ n <+: e'.opt.name := by
      intro e'; rw [List.mem_filter, List.isPrefixOf_iff_prefix]
    cases hl : t.filter fun e => n.isPrefixOf e.opt.name with
    | nil =>
      rw [hl] at hmem
      simp only
      constructor
      · intro h; cases h
      · rintro ⟨hm, h | ⟨-, hp, -⟩⟩
        · exact absurd h (hno e hm)
        · exact absurd ((hmem e).2 ⟨hm, hp⟩) (by simp)
    | cons e0 es =>
      rw [hl] at hmem
      have m0 := (hmem e0).1 (by simp)
      simp only
      split_ifs with hall
      · rw [List.all_eq_true] at hall
        have same : ∀ e' ∈ t, n <+: e'.opt.name → e' = e0 := by
          intro e' he' hp
          rcases List.mem_cons.1 ((hmem e').2 ⟨he', hp⟩) with h | h
          · exact h
          · have := hall e' h
            simp only [Bool.and_eq_true, beq_iff_eq] at this
            exact g.keys e' he' e0 m0.1 this.1.2 this.2
        constructor
        · rintro h; cases h; exact ⟨m0.1, Or.inr ⟨hno, m0.2, same⟩⟩
        · rintro ⟨hm, h | ⟨-, hp, -⟩⟩
          · exact absurd h (hno e hm)
          · rw [same e hm hp]
      · constructor
        · intro h; cases h
        · rintro ⟨hm, h | ⟨-, hp, hu⟩⟩
          · exact absurd h (hno e hm)
          · refine absurd ?_ hall
            rw [List.all_eq_true]
            intro e' he'
            have h1 := (hmem e').1 (by simp [he'])
            rw [hu e' h1.1 h1.2, hu e0 m0.1 m0.2]
            simp

theorem findShort_iff (g : Good t) (c : Char) (e : Entry) : findShort t c = some e ↔ Letter t c e := by
  unfold findShort Letter
  constructor
  · intro h
    have h0 := List.find?_some h
    simp only [Bool.and_eq_true, beq_iff_eq, isShort, decide_eq_true_eq] at h0
    exact ⟨List.mem_of_find?_eq_some h, h0.2, by omega, by omega⟩
  · rintro ⟨hm, hk, h1, h2⟩
    have hs : isShort e.opt.key = true := by simp only [isShort, decide_eq_true_eq]; omega
    cases hf : t.find? fun e => isShort e.opt.key && e.opt.key == (c.toNat : Int) with
    | none => exact absurd (List.find?_eq_none.1 hf e hm) (by rw [hs, hk]; simp)
    | some e0 =>
      have h0 := List.find?_some hf
      simp only [Bool.and_eq_true, beq_iff_eq] at h0
      rw [g.shorts e0 (List.mem_of_find?_eq_some hf) e hm h0.1 (h0.2.trans hk.symm)]

theorem Names.noEq (g : Good t) {n : Word} {e : Entry} (h : Names t n e) : '=' ∉ n := by
  obtain ⟨hm, h | ⟨-, hp, -⟩⟩ := h
  · rw [← h]; exact g.noEq e hm
  · exact fun hc => g.noEq e hm (hp.subset hc)

theorem Names.ne_nil (g : Good t) {n : Word} {e : Entry} (h : Names t n e) : n ≠ [] := by
  rintro rfl
  obtain ⟨hm, h | ⟨-, -, hu⟩⟩ := h
  · exact g.named e hm h
  · obtain ⟨a, ha, b, hb, hab⟩ := g.two
    exact hab ((hu a ha (List.nil_prefix)).trans (hu b hb (List.nil_prefix)).symm)

theorem takeWhile_eq (n v : Word) (h : '=' ∉ n) :
    (n ++ '=' :: v).takeWhile (· != '=') = n ∧ (n ++ '=' :: v).dropWhile (· != '=') = '=' :: v := by
  have h' : ∀ c ∈ n, (c != '=') = true := by intro c hc; simp; rintro rfl; exact h hc
  rw [List.takeWhile_append_of_pos h', List.dropWhile_append_of_pos h']
  simp

theorem takeWhile_all (n : Word) (h : '=' ∉ n) : n.takeWhile (· != '=') = n ∧ n.dropWhile (· != '=') = [] := by
  have h' : ∀ c ∈ n, (c != '=') = true := by intro c hc; simp; rintro rfl; exact h hc
  exact ⟨List.takeWhile_eq_self_iff.2 h', List.dropWhile_eq_nil_iff.2 h'⟩

/-! ## One option -/

/-- What is done with a word that is an option. -/
def readOne (t : List Entry) (w : Word) (ws : List Word) : List Ev × Option (List Word) :=
  if w.take 2 = ['-', '-'] then long t (w.drop 2) ws else short t (w.drop 1) ws

theorem short_of_letters (g : Good t) {cs us es} (h : Letters t cs us es) (ws : List Word) : short t cs (us ++ ws) = (es, some ws) := by
  induction h with
  | nil => rfl
  | flag hl hh _ ih => simp only [short, (findShort_iff g _ _).2 hl, hh, ih]
  | glued hl hh hv => simp only [short, (findShort_iff g _ _).2 hl, hh, if_pos hv, List.nil_append]
  | apart v hl hh => simp [short, (findShort_iff g _ _).2 hl, hh]

theorem letters_of_short (g : Good t) (cs : Word) (ws : List Word) :
    (∀ ws', (short t cs ws).2 = some ws' → ∃ us, ws = us ++ ws' ∧ Letters t cs us (short t cs ws).1) ∧
    ((short t cs ws).2 = none → .bad ∈ (short t cs ws).1) := by
  induction cs with
  | nil =>
    refine ⟨fun ws' h => ⟨[], ?_, .nil⟩, fun h => by cases h⟩
    simp only [short, Option.some.injEq] at h
    simp [h]
  | cons c cs ih =>
    unfold short
    cases hf : findShort t c with
    | none => simp
    | some e =>
      have hl := (findShort_iff g c e).1 hf
      cases hh : e.opt.has with
      | none =>
        simp only [hh]
        refine ⟨fun ws' h => ?_, fun h => ?_⟩
        · obtain ⟨us, h1, h2⟩ := ih.1 ws' h
          exact ⟨us, h1, .flag hl hh h2⟩
        · exact List.mem_cons_of_mem _ (ih.2 h)
      | optional =>
        have h1 := g.optional e hl.1 hh
        have h2 : isShort e.opt.key = true := by
          have := hl.2
          simp only [isShort, decide_eq_true_eq]; omega
        rw [h1] at h2; cases h2
      | required =>
        simp only [hh]
        by_cases hc : cs = []
        · subst hc
          cases ws with
          | nil => simp
          | cons w ws =>
            refine ⟨fun ws' h => ⟨[w], ?_, ?_⟩, fun h => by simp at h⟩
            · simp at h; simp [h]
            · simp; exact .apart w hl hh
        · rw [if_pos hc]
          refine ⟨fun ws' h => ⟨[], ?_, .glued hl hh hc⟩, fun h => by cases h⟩
          simp at h; simp [h]

/-- An option as it is spelt is read so. -/
theorem readOne_of_spelt (g : Good t) {us es} (h : Spelt t us es) :
    ∃ w us', us = w :: us' ∧ w ≠ ['-', '-'] ∧ isPlain w = false ∧ ∀ ws, readOne t w (us' ++ ws) = (es, some ws) := by
  cases h with
  | @flag n e hN hh =>
    have hne := hN.ne_nil g
    refine ⟨_, [], rfl, by simpa using hne, rfl, fun ws => ?_⟩
    have := takeWhile_all n (hN.noEq g)
    simp only [readOne, List.take_succ_cons, List.take_zero, if_true, List.drop_succ_cons, List.drop_zero, long, this.1, this.2,
      (findLong_iff g n e).2 hN, List.nil_append]
    cases h : e.opt.has <;> simp_all
  | @value n e v hN hh =>
    refine ⟨_, [], rfl, by simp, rfl, fun ws => ?_⟩
    have := takeWhile_eq n v (hN.noEq g)
    simp only [readOne, List.take_succ_cons, List.take_zero, if_true, List.drop_succ_cons, List.drop_zero, long, this.1, this.2,
      (findLong_iff g n e).2 hN, List.nil_append]
    cases h : e.opt.has <;> simp_all
  | @apart n e v hN hh =>
    have hne := hN.ne_nil g
    refine ⟨_, [v], rfl, by simpa using hne, rfl, fun ws => ?_⟩
    have := takeWhile_all n (hN.noEq g)
    simp only [readOne, List.take_succ_cons, List.take_zero, if_true, List.drop_succ_cons, List.drop_zero, long, this.1, this.2,
      (findLong_iff g n e).2 hN, hh, List.singleton_append]
  | @letters cs us es hc hl =>
    have h2 : ∀ c cs', cs = c :: cs' → c ≠ '-' := by
      rintro c cs' rfl rfl
      have key : ∀ e, ¬ Letter t '-' e := fun e he => g.noHyphen e he.1 he.2.1
      cases hl with
      | flag h => exact key _ h
      | glued h => exact key _ h
      | apart v h => exact key _ h
    obtain ⟨c, cs', rfl⟩ := List.exists_cons_of_ne_nil hc
    have hne := h2 c cs' rfl
    refine ⟨_, us, rfl, ?_, rfl, fun ws => ?_⟩
    · simp [hne]
    · unfold readOne
      rw [if_neg (by simp [hne])]
      exact short_of_letters g hl ws

/-- What is read as options is spelt so. -/
theorem spelt_of_readOne (g : Good t) (w : Word) (ws : List Word) (hw : isPlain w = false) :
    (∀ ws', (readOne t w ws).2 = some ws' → ∃ us, ws = us ++ ws' ∧ Spelt t (w :: us) (readOne t w ws).1) ∧
    ((readOne t w ws).2 = none → .bad ∈ (readOne t w ws).1) := by
  obtain ⟨c, u, rfl⟩ : ∃ c u, w = '-' :: c :: u := by
    unfold isPlain at hw
    split at hw
    · exact ⟨_, _, rfl⟩
    · cases hw
  unfold readOne
  by_cases hc : c = '-'
  · subst hc
    simp only [List.take_succ_cons, List.take_zero, if_true, List.drop_succ_cons, List.drop_zero]
    unfold long
    cases hf : findLong t (u.takeWhile (· != '=')) with
    | none => simp
    | some e =>
      have hN := (findLong_iff g _ e).1 hf
      have hu : u.takeWhile (· != '=') ++ u.dropWhile (· != '=') = u := List.takeWhile_append_dropWhile
      simp only
      cases hd : u.dropWhile (· != '=') with
      | nil =>
        rw [hd, List.append_nil] at hu
        rw [hu] at hN
        cases hh : e.opt.has with
        | none =>
          refine ⟨fun ws' h => ⟨[], ?_, .flag hN (by simp [hh])⟩, fun h => by cases h⟩
          simp at h; simp [h]
        | optional =>
          refine ⟨fun ws' h => ⟨[], ?_, .flag hN (by simp [hh])⟩, fun h => by cases h⟩
          simp at h; simp [h]
        | required =>
          cases ws with
          | nil => simp
          | cons v ws =>
            refine ⟨fun ws' h => ⟨[v], ?_, .apart v hN hh⟩, fun h => by cases h⟩
            simp at h; simp [h]
      | cons d v =>
        have hd' : d = '=' := by
          have := List.head?_dropWhile_not (· != '=') u
          rw [hd] at this
          simpa using this
        subst hd'
        rw [hd] at hu
        have hN' : e.opt.has ≠ .none → Spelt t [('-' :: '-' :: u)] [.opt e (some v)] := fun hh => by
          have := Spelt.value v hN hh
          rwa [hu] at this
        cases hh : e.opt.has with
        | none => simp
        | optional =>
          refine ⟨fun ws' h => ⟨[], ?_, hN' (by simp [hh])⟩, fun h => by cases h⟩
          simp at h; simp [h]
        | required =>
          refine ⟨fun ws' h => ⟨[], ?_, hN' (by simp [hh])⟩, fun h => by cases h⟩
          simp at h; simp [h]
  · rw [if_neg (by simp [hc])]
    simp only [List.drop_succ_cons, List.drop_zero]
    obtain ⟨h1, h2⟩ := letters_of_short g (c :: u) ws
    refine ⟨fun ws' h => ?_, h2⟩
    obtain ⟨us, h3, h4⟩ := h1 ws' h
    exact ⟨us, h3, .letters (by simp) h4⟩

/-! ## The whole command line -/

theorem scan_cons (posix : Bool) (n : Nat) (w : Word) (ws skipped : List Word) (h1 : w ≠ ['-', '-']) (h2 : isPlain w = false) :
    scan posix t (n + 1) (w :: ws) skipped = match (readOne t w ws).2 with
      | none => (readOne t w ws).1
      | some ws' => (readOne t w ws).1 ++ scan posix t n ws' skipped := by
  rw [scan, if_neg h1, if_neg (by simp [h2])]
  rfl

theorem scan_of_reads (posix : Bool) (g : Good t) {ws os ss} (h : Reads posix t ws os ss) :
    ∀ (n : Nat) (skipped : List Word), ws.length < n → scan posix t n ws skipped = os ++ (skipped ++ ss).map .word := by
  induction h with
  | nil =>
    intro n skipped hl
    obtain ⟨n, rfl⟩ : ∃ m, n = m + 1 := ⟨n - 1, by simp at hl; omega⟩
    simp [scan]
  | stop ws =>
    intro n skipped hl
    obtain ⟨n, rfl⟩ : ∃ m, n = m + 1 := ⟨n - 1, by simp at hl; omega⟩
    simp [scan]
  | @stray w ws os ss hp hw hr ih =>
    intro n skipped hl
    obtain ⟨n, rfl⟩ : ∃ m, n = m + 1 := ⟨n - 1, by simp at hl; omega⟩
    have hne : w ≠ ['-', '-'] := by
      rintro rfl
      have := (plain_iff _).2 hw
      cases this
    unfold scan
    rw [if_neg hne, if_pos ((plain_iff w).2 hw), hp, if_neg (by simp), ← hp, ih n (skipped ++ [w]) (by simp at hl; omega)]
    simp
  | @rest w ws hp hw =>
    intro n skipped hl
    obtain ⟨n, rfl⟩ : ∃ m, n = m + 1 := ⟨n - 1, by simp at hl; omega⟩
    have hne : w ≠ ['-', '-'] := by
      rintro rfl
      have := (plain_iff _).2 hw
      cases this
    unfold scan
    rw [if_neg hne, if_pos ((plain_iff w).2 hw), hp, if_pos rfl]
    simp
  | @option us es ws os ss hs hr ih =>
    intro n skipped hl
    obtain ⟨w, us', rfl, h1, h2, h3⟩ := readOne_of_spelt g hs
    obtain ⟨n, rfl⟩ : ∃ m, n = m + 1 := ⟨n - 1, by simp at hl; omega⟩
    rw [List.cons_append, scan_cons posix n w _ skipped h1 h2, h3 ws]
    simp only
    rw [ih n skipped (by simp at hl; omega), List.append_assoc]

theorem reads_of_scan (posix : Bool) (g : Good t) :
    ∀ (n : Nat) (ws skipped : List Word), ws.length < n → .bad ∉ scan posix t n ws skipped → ∃ os ss, Reads posix t ws os ss
  | 0, _, _, h, _ => by omega
  | n + 1, [], _, _, _ => ⟨[], [], .nil⟩
  | n + 1, w :: ws, skipped, hl, hb => by
    by_cases h1 : w = ['-', '-']
    · subst h1; exact ⟨[], ws, .stop ws⟩
    cases h2 : isPlain w with
    | true =>
      have hw := (plain_iff w).1 h2
      cases hp : posix with
      | true => exact ⟨[], _, .rest rfl hw⟩
      | false =>
        unfold scan at hb
        rw [if_neg h1, if_pos h2, hp, if_neg (by simp)] at hb
        obtain ⟨os, ss, hr⟩ := reads_of_scan false g n ws (skipped ++ [w]) (by simp at hl; omega) hb
        exact ⟨os, w :: ss, .stray rfl hw hr⟩
    | false =>
      rw [scan_cons posix n w ws skipped h1 h2] at hb
      obtain ⟨h3, h4⟩ := spelt_of_readOne g w ws h2
      cases hr : (readOne t w ws).2 with
      | none => rw [hr] at hb; exact absurd (h4 hr) hb
      | some ws' =>
        rw [hr] at hb
        simp only [List.mem_append, not_or] at hb
        obtain ⟨us, rfl, hs⟩ := h3 ws' hr
        obtain ⟨os, ss, hr'⟩ := reads_of_scan posix g n ws' skipped (by simp at hl; omega) hb.2
        exact ⟨_, _, .option hs hr'⟩

theorem reads_opts (posix : Bool) {ws os ss} (h : Reads posix t ws os ss) : ∀ ev ∈ os, ∃ e a, ev = .opt e a := by
  have hl : ∀ {cs us es}, Letters t cs us es → ∀ ev ∈ es, ∃ e a, ev = Ev.opt e a := by
    intro cs us es h
    induction h with
    | nil => simp
    | flag _ _ _ ih =>
      intro ev hev
      rcases List.mem_cons.1 hev with rfl | hev
      · exact ⟨_, _, rfl⟩
      · exact ih ev hev
    | glued => intro ev hev; exact ⟨_, _, List.mem_singleton.1 hev⟩
    | apart => intro ev hev; exact ⟨_, _, List.mem_singleton.1 hev⟩
  have hs : ∀ {us es}, Spelt t us es → ∀ ev ∈ es, ∃ e a, ev = Ev.opt e a := by
    intro us es h
    cases h with
    | flag => intro ev hev; exact ⟨_, _, List.mem_singleton.1 hev⟩
    | value => intro ev hev; exact ⟨_, _, List.mem_singleton.1 hev⟩
    | apart => intro ev hev; exact ⟨_, _, List.mem_singleton.1 hev⟩
    | letters _ h => exact hl h
  induction h with
  | nil => simp
  | stop => simp
  | stray _ _ _ ih => exact ih
  | rest => simp
  | option h _ ih =>
    intro ev hev
    rcases List.mem_append.1 hev with hev | hev
    · exact hs h ev hev
    · exact ih ev hev

/-- **C103, grammar.**  On every list of words, `getopt_long` finds the options and the other words that the grammar says, the options first; it finds
an error exactly when the words have no reading. -/
theorem C103_scan (posix : Bool) (g : Good t) (ws : List Word) :
    (∀ os ss, Reads posix t ws os ss → scan posix t (ws.length + 1) ws [] = os ++ ss.map .word) ∧
    (.bad ∈ scan posix t (ws.length + 1) ws [] ↔ ¬ ∃ os ss, Reads posix t ws os ss) := by
  have h1 : ∀ os ss, Reads posix t ws os ss → scan posix t (ws.length + 1) ws [] = os ++ ss.map .word := by
    intro os ss h
    have := scan_of_reads posix g h (ws.length + 1) [] (by omega)
    simpa using this
  refine ⟨h1, ?_, fun h => ?_⟩
  · rintro hb ⟨os, ss, hr⟩
    rw [h1 os ss hr, List.mem_append] at hb
    rcases hb with hb | hb
    · obtain ⟨e, a, h⟩ := reads_opts posix hr _ hb
      cases h
    · obtain ⟨w, -, h⟩ := List.mem_map.1 hb
      cases h
  · by_contra hb
    exact h (reads_of_scan posix g (ws.length + 1) ws [] (by omega) hb)

/-- **C103, no ambiguity.**  A command line has one reading at most. -/
theorem C103_unique (posix : Bool) (g : Good t) (ws : List Word) (os os' : List Ev) (ss ss' : List Word)
    (h : Reads posix t ws os ss) (h' : Reads posix t ws os' ss') : os = os' ∧ ss = ss' := by
  have e := ((C103_scan posix g ws).1 os ss h).symm.trans ((C103_scan posix g ws).1 os' ss' h')
  have o := reads_opts posix h
  have o' := reads_opts posix h'
  clear h h'
  induction os generalizing os' with
  | nil =>
    cases os' with
    | nil =>
      refine ⟨rfl, ?_⟩
      simp only [List.nil_append] at e
      exact (List.map_inj_right (fun _ _ h => by cases h; rfl)).1 e
    | cons a as =>
      obtain ⟨x, y, rfl⟩ := o' a (by simp)
      cases ss with
      | nil => simp at e
      | cons s ss => simp at e
  | cons a as ih =>
    cases os' with
    | nil =>
      obtain ⟨x, y, rfl⟩ := o a (by simp)
      cases ss' with
      | nil => simp at e
      | cons s ss => simp at e
    | cons b bs =>
      simp only [List.cons_append, List.cons.injEq] at e
      obtain ⟨h1, h2⟩ := ih bs e.2 (fun ev hev => o ev (by simp [hev])) (fun ev hev => o' ev (by simp [hev]))
      exact ⟨by rw [e.1, h1], h2⟩

/-- Two options and two other words. -/
example (t : List Entry) (e f : Entry) (he : Names t "mode".toList e) (hf : Letter t 'f' f) (h1 : e.opt.has = .required) (h2 : f.opt.has = .none) :
    Reads false t ["1".toList, "--mode".toList, "rr".toList, "-".toList, "-f".toList] [.opt e (some "rr".toList), .opt f none]
      ["1".toList, "-".toList] :=
  .stray rfl (Or.inr (by simp)) (.option (us := ["--mode".toList, "rr".toList]) (es := [.opt e (some "rr".toList)]) (.apart _ he h1)
    (.stray rfl (Or.inl rfl) (.option (us := ["-f".toList]) (es := [.opt f none]) (.letters (by decide) (.flag hf h2 .nil)) .nil)))

end Verif.Cli
