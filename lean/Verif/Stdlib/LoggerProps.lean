import Verif.Stdlib.Logger

/-!
# Logger: properties (C92)

What a process writes through the logger, on which stream, and when an error ends it, for any
environment and any sequence of calls.
-/

namespace Verif.Logger
open Verif
open Verif.Stdlib (CStr)

/-- The same text up to the case of its letters. -/
def SameText (a b : CStr) : Prop := a.map Char.toLower = b.map Char.toLower

/-- The logger is not disabled: the variable is unset or reads "true". -/
def On (e : Env) : Prop := ∀ s, e "VFC_BACKENDS_LOGGER".toList = some s → SameText s "true".toList

/-- Color is asked for. -/
def Colored (e : Env) : Prop := ∃ s, e "VFC_BACKENDS_COLORED_LOGGER".toList = some s ∧ SameText s "true".toList

/-- The environment asks for a level. -/
def Asks (e : Env) (l : Level) : Prop :=
  ∃ s, e "VFC_BACKENDS_LOGGER_LEVEL".toList = some s ∧ SameText s (levelName l)

/-- Verbosity of a level, the most verbose first. -/
def Level.rank (l : Level) : Nat := [Level.debug, .info, .warning, .error].idxOf l

/-- A message of this level is wanted: the logger is on, and the level is at least the level asked
for, `info` when none is. -/
def Wanted (e : Env) (l : Level) : Prop :=
  On e ∧ ((∃ m, Asks e m ∧ m.rank ≤ l.rank) ∨ (∀ m, ¬ Asks e m) ∧ Level.info.rank ≤ l.rank)

theorem caseEq_iff (a b : CStr) : caseEq a b = true ↔ SameText a b := by
  simp [caseEq, SameText]

instance (a b : CStr) : Decidable (SameText a b) := inferInstanceAs (Decidable (_ = _))

theorem sameText_lower {a b c : CStr} (h : SameText b c) : SameText a b ↔ SameText a c := by
  unfold SameText at *; rw [h]

theorem isEnabled_iff (e : Env) : isEnabled e = true ↔ On e := by
  unfold isEnabled On
  cases h : e "VFC_BACKENDS_LOGGER".toList with
  | none => simp
  | some s =>
    have ht : SameText "True".toList "true".toList := by decide +kernel
    simp only [Option.some.injEq, forall_eq']
    rw [← sameText_lower ht, ← caseEq_iff]
    cases caseEq s "True".toList <;> simp

theorem isColored_iff (e : Env) : isColored e = true ↔ Colored e := by
  unfold isColored Colored
  cases h : e "VFC_BACKENDS_COLORED_LOGGER".toList with
  | none => simp
  | some s =>
    have ht : SameText "True".toList "true".toList := by decide +kernel
    simp only [Option.some.injEq, exists_eq_left']
    rw [← sameText_lower ht, ← caseEq_iff]
    cases caseEq s "True".toList <;> simp

theorem names_differ (l m : Level) (h : SameText (levelName l) (levelName m)) : l = m := by
  cases l <;> cases m <;> first | rfl | (exact absurd h (by decide +kernel))

theorem asks_unique {e : Env} {l m : Level} (h1 : Asks e l) (h2 : Asks e m) : l = m := by
  obtain ⟨s, hs, h1⟩ := h1
  obtain ⟨s', hs', h2⟩ := h2
  rw [hs] at hs'
  cases hs'
  exact names_differ l m (by unfold SameText at *; rw [← h1, h2])

theorem getLevel_spec (e : Env) : Asks e (getLevel e) ∨ (∀ m, ¬ Asks e m) ∧ getLevel e = .info := by
  unfold getLevel
  cases h : e "VFC_BACKENDS_LOGGER_LEVEL".toList with
  | none =>
    right
    refine ⟨?_, rfl⟩
    rintro m ⟨s, hs, _⟩
    rw [h] at hs; cases hs
  | some s =>
    have hd : SameText "debug".toList (levelName .debug) := by decide +kernel
    have hi : SameText "info".toList (levelName .info) := by decide +kernel
    have hw : SameText "warning".toList (levelName .warning) := by decide +kernel
    have he : SameText "error".toList (levelName .error) := by decide +kernel
    simp only [caseEq_iff, sameText_lower hd, sameText_lower hi, sameText_lower hw, sameText_lower he]
    by_cases h1 : SameText s (levelName .debug)
    · left; rw [if_pos h1]; exact ⟨s, h, h1⟩
    rw [if_neg h1]
    by_cases h2 : SameText s (levelName .info)
    · left; rw [if_pos h2]; exact ⟨s, h, h2⟩
    rw [if_neg h2]
    by_cases h3 : SameText s (levelName .warning)
    · left; rw [if_pos h3]; exact ⟨s, h, h3⟩
    rw [if_neg h3]
    by_cases h4 : SameText s (levelName .error)
    · left; rw [if_pos h4]; exact ⟨s, h, h4⟩
    rw [if_neg h4]
    right
    refine ⟨?_, rfl⟩
    rintro m ⟨s', hs', hm⟩
    rw [h] at hs'
    cases hs'
    cases m <;> contradiction

theorem rank_eq (l : Level) : l.rank = l.toNat := by cases l <;> rfl

theorem wanted_iff (e : Env) (l : Level) :
    Wanted e l ↔ (isEnabled e = true ∧ (getLevel e).toNat ≤ l.toNat) := by
  unfold Wanted
  rw [isEnabled_iff]
  simp only [rank_eq]
  refine and_congr_right fun _ => ?_
  rcases getLevel_spec e with h | ⟨h1, h2⟩
  · constructor
    · rintro (⟨m, hm, hr⟩ | ⟨hn, _⟩)
      · rwa [asks_unique h hm]
      · exact absurd h (hn _)
    · exact fun hr => Or.inl ⟨_, h, hr⟩
  · rw [h2]
    constructor
    · rintro (⟨m, hm, _⟩ | ⟨_, hr⟩)
      · exact absurd hm (h1 m)
      · exact hr
    · exact fun hr => Or.inr ⟨h1, hr⟩

instance (e : Env) (l : Level) : Decidable (Wanted e l) := decidable_of_iff _ (wanted_iff e l).symm

instance (e : Env) : Decidable (Colored e) := decidable_of_iff _ (isColored_iff e)

/-- Traces: what is only of interest to somebody who follows the run. -/
def Level.isTrace : Level → Bool
  | .debug | .info => true
  | .warning | .error => false

/-- The stream of a message: warnings and errors on the standard error, the rest on the file
`<VFC_BACKENDS_LOGFILE>.<thread that initialised the logger>` if the variable is set. -/
def dest (e : Env) (tid : Nat) (l : Level) : Stream :=
  match l.isTrace, e "VFC_BACKENDS_LOGFILE".toList with
  | true, some base => .file (base ++ '.' :: (toString tid).toList)
  | _, _ => .stderr

/-- "Info [verificarlo]: ", colored or not. -/
def headerSpec (e : Env) (name : CStr) (l : Level) : CStr :=
  if Colored e then
    color l ++ levelName l ++ ansi "0" ++ " [".toList ++ ansi "32" ++ name ++ ansi "0" ++ "]: ".toList
  else levelName l ++ " [".toList ++ name ++ "]: ".toList

/-- What a call writes. -/
def line (h : Host) (e : Env) (name : CStr) (c : Call) : CStr :=
  if c.level.isTrace then
    if Wanted e c.level then headerSpec e name c.level ++ c.msg else []
  else (if Wanted e c.level then headerSpec e name c.level else []) ++
    (h.prog ++ ": ".toList ++ c.msg ++ "\n".toList)

/-- The calls that are executed: those before the first error, and it. -/
def upToError : List Call → List Call
  | [] => []
  | c :: cs => if c.level = .error then [c] else c :: upToError cs

/-- All that a process has written on a stream. -/
def text (p : Proc) (s : Stream) : CStr := (p.out.filter (fun x => decide (x.1 = s))).flatMap (·.2)

/-- The log can be opened: no file is asked for, or its name fits in the buffer and the file
can be opened. -/
def CanLog (h : Host) (e : Env) (tid : Nat) : Prop :=
  ∀ base, e "VFC_BACKENDS_LOGFILE".toList = some base →
    base.length + 1 + (toString tid).length < 1024 ∧ h.canOpen (base ++ '.' :: (toString tid).toList) = true

theorem fileName_eq (base : CStr) (tid : Nat) : fileName base tid = base ++ '.' :: (toString tid).toList := by
  simp [fileName]

theorem fileName_length (base : CStr) (tid : Nat) :
    (fileName base tid).length = base.length + 1 + (toString tid).length := by
  rw [fileName_eq]
  simp only [List.length_append, List.length_cons, String.length_toList]
  omega

/-- The variables after `logger_init`. -/
def varsOf (e : Env) (tid : Nat) (name : CStr) : Vars :=
  ⟨name, isEnabled e, isColored e, getLevel e, some (dest e tid .info)⟩

theorem init_spec (h : Host) (e : Env) (tid : Nat) (name : CStr) (p : Proc) (hl : CanLog h e tid) :
    init h e tid name .initial p = .ok (varsOf e tid name, p) := by
  unfold init setLogfile varsOf dest
  simp only [Vars.initial, Level.isTrace]
  cases hb : e "VFC_BACKENDS_LOGFILE".toList with
  | none => rfl
  | some base =>
    obtain ⟨h1, h2⟩ := hl base hb
    simp only []
    rw [if_neg (by rw [fileName_length]; omega), if_pos (by rw [fileName_eq]; exact h2), fileName_eq]

theorem headerText_spec (e : Env) (tid : Nat) (name : CStr) (l : Level) :
    headerText (varsOf e tid name) l = headerSpec e name l := by
  unfold headerText headerSpec varsOf
  by_cases hc : Colored e
  · rw [if_pos hc, if_pos ((isColored_iff e).2 hc)]
  · rw [if_neg hc, if_neg (fun h => hc ((isColored_iff e).1 h))]

theorem text_write (p : Proc) (s s' : Stream) (t : CStr) :
    text (p.write s t) s' = text p s' ++ (if s = s' then t else []) := by
  unfold text Proc.write
  rw [List.filter_append, List.flatMap_append]
  congr 1
  by_cases hs : s = s'
  · rw [if_pos hs]; simp [hs]
  · rw [if_neg hs]; simp [hs]

/-- One call of a live process. -/
theorem call_spec (h : Host) (e : Env) (tid : Nat) (name : CStr) (c : Call) (p : Proc) (hp : p.ended = none) :
    ∃ p', call h (varsOf e tid name) c p = .ok p' ∧
      p'.ended = (if c.level = .error then some 1 else none) ∧
      ∀ s, text p' s = text p s ++ (if dest e tid c.level = s then line h e name c else []) := by
  obtain ⟨t, l, m⟩ := c
  have hw := wanted_iff e l
  have hws : ∀ s t', (p.write s t').ended = none := fun s t' => hp
  cases l
  · unfold call; rw [hp]; simp only []
    unfold logTrace
    by_cases hwt : Wanted e .debug
    · rw [if_pos (by simpa [varsOf] using hw.1 hwt)]
      refine ⟨(p.write (dest e tid .info) (headerText (varsOf e tid name) .debug)).write (dest e tid .info) m, rfl, hp, ?_⟩
      intro s
      rw [text_write, text_write, headerText_spec]
      have hd : dest e tid .debug = dest e tid .info := rfl
      rw [hd]
      simp only [line, Level.isTrace, if_true, hwt]
      by_cases hs : dest e tid .info = s <;> simp [hs]
    · rw [if_neg (fun h => hwt (hw.2 (by simpa [varsOf] using h)))]
      refine ⟨p, rfl, hp, fun s => ?_⟩
      simp [line, Level.isTrace, hwt]
  · unfold call; rw [hp]; simp only []
    unfold logTrace
    by_cases hwt : Wanted e .info
    · rw [if_pos (by simpa [varsOf] using hw.1 hwt)]
      refine ⟨(p.write (dest e tid .info) (headerText (varsOf e tid name) .info)).write (dest e tid .info) m, rfl, hp, ?_⟩
      intro s
      rw [text_write, text_write, headerText_spec]
      simp only [line, Level.isTrace, if_true, hwt]
      by_cases hs : dest e tid .info = s <;> simp [hs]
    · rw [if_neg (fun h => hwt (hw.2 (by simpa [varsOf] using h)))]
      refine ⟨p, rfl, hp, fun s => ?_⟩
      simp [line, Level.isTrace, hwt]
  · unfold call; rw [hp]; simp only []
    refine ⟨_, rfl, ?_, ?_⟩
    · unfold logWarning vwarnx alertHeader
      split <;> exact hp
    · intro s
      unfold logWarning vwarnx alertHeader
      have hd : dest e tid .warning = .stderr := by simp [dest, Level.isTrace]
      rw [hd, text_write]
      simp only [line, Level.isTrace]
      by_cases hwt : Wanted e .warning
      · rw [if_pos (by simpa [varsOf] using hw.1 hwt), text_write, headerText_spec, if_pos hwt]
        by_cases hs : Stream.stderr = s <;> simp [hs, hwt]
      · rw [if_neg (fun h => hwt (hw.2 (by simpa [varsOf] using h))), if_neg hwt]
        by_cases hs : Stream.stderr = s <;> simp [hs, hwt]
  · unfold call; rw [hp]; simp only []
    refine ⟨_, rfl, rfl, ?_⟩
    intro s
    unfold logError verrx
    have ht : ∀ q : Proc, text { q with ended := some 1 } s = text q s := fun _ => rfl
    rw [ht]
    unfold vwarnx alertHeader
    have hd : dest e tid .error = .stderr := by simp [dest, Level.isTrace]
    rw [hd, text_write]
    simp only [line, Level.isTrace]
    by_cases hwt : Wanted e .error
    · rw [if_pos (by simpa [varsOf] using hw.1 hwt), text_write, headerText_spec, if_pos hwt]
      by_cases hs : Stream.stderr = s <;> simp [hs, hwt]
    · rw [if_neg (fun h => hwt (hw.2 (by simpa [varsOf] using h))), if_neg hwt]
      by_cases hs : Stream.stderr = s <;> simp [hs, hwt]

theorem calls_ended (h : Host) (v : Vars) (n : Nat) : ∀ (cs : List Call) (p : Proc), p.ended = some n →
    calls h v cs p = .ok p := by
  intro cs
  induction cs with
  | nil => intro p _; rfl
  | cons c cs ih =>
    intro p hp
    unfold calls call
    rw [hp]
    exact ih p hp

theorem calls_spec (h : Host) (e : Env) (tid : Nat) (name : CStr) : ∀ (cs : List Call) (p : Proc), p.ended = none →
    ∃ p', calls h (varsOf e tid name) cs p = .ok p' ∧
      p'.ended = (if ∃ c ∈ cs, c.level = .error then some 1 else none) ∧
      ∀ s, text p' s = text p s ++
        (upToError cs).flatMap (fun c => if dest e tid c.level = s then line h e name c else []) := by
  intro cs
  induction cs with
  | nil => intro p hp; exact ⟨p, rfl, by simp [hp], by simp [upToError]⟩
  | cons c cs ih =>
    intro p hp
    obtain ⟨p1, h1, h2, h3⟩ := call_spec h e tid name c p hp
    unfold calls
    rw [h1, Outcome.bind_ok]
    by_cases hc : c.level = .error
    · rw [if_pos hc] at h2
      refine ⟨p1, calls_ended h _ 1 cs p1 h2, ?_, ?_⟩
      · rw [if_pos ⟨c, List.mem_cons_self .., hc⟩]; exact h2
      · intro s
        rw [h3, upToError, if_pos hc]
        simp
    · rw [if_neg hc] at h2
      obtain ⟨p2, h4, h5, h6⟩ := ih p1 h2
      refine ⟨p2, h4, ?_, ?_⟩
      · rw [h5]
        simp [hc]
      · intro s
        rw [h6, h3, upToError, if_neg hc]
        simp

/-- **C92.**  For any environment in which the log can be opened, any host, header and calls: nothing
undefined happens; each stream receives, in order, exactly the lines of the calls directed to it up to
the first error; the process ends, with status 1, if and only if there is an error.  A trace is written
if it is wanted, with its header.  Missing: the suppression of warnings and errors that are not wanted,
of which only the header is suppressed (`C92_silence_wrong`), and environments with a long file
name (`C92_name_wrong`). -/
theorem C92_text_partial (h : Host) (e : Env) (tid : Nat) (name : CStr) (cs : List Call)
    (hl : CanLog h e tid) :
    ∃ p, run h e tid name cs = .ok p ∧
      (∀ s, text p s = (upToError cs).flatMap (fun c => if dest e tid c.level = s then line h e name c else [])) ∧
      (p.ended = some 1 ↔ ∃ c ∈ cs, c.level = .error) ∧ (p.ended = none ↔ ∀ c ∈ cs, c.level ≠ .error) := by
  unfold run
  rw [init_spec h e tid name _ hl, Outcome.bind_ok]
  obtain ⟨p, h1, h2, h3⟩ := calls_spec h e tid name cs ⟨[], none⟩ rfl
  refine ⟨p, h1, ?_, ?_, ?_⟩
  · intro s
    rw [h3]
    rfl
  · rw [h2]
    by_cases hx : ∃ c ∈ cs, c.level = .error <;> simp [hx]
  · rw [h2]
    by_cases hx : ∃ c ∈ cs, c.level = .error
    · rw [if_pos hx]
      obtain ⟨c, hc, he⟩ := hx
      exact ⟨fun h => (by cases h), fun h => absurd he (h c hc)⟩
    · rw [if_neg hx]
      exact ⟨fun _ c hc he => hx ⟨c, hc, he⟩, fun _ => rfl⟩

def env1 : Env := fun n =>
  if n = "VFC_BACKENDS_LOGGER_LEVEL".toList then some "WARNING".toList
  else if n = "VFC_BACKENDS_LOGFILE".toList then some "out".toList else none

def host1 : Host := ⟨"prog".toList, fun _ => true, fun n => if n = 0 then "Success".toList else "Failure".toList⟩

def calls1 : List Call :=
  [⟨7, .info, "a".toList⟩, ⟨7, .warning, "b".toList⟩, ⟨8, .error, "c".toList⟩, ⟨7, .warning, "d".toList⟩]

example : (run host1 env1 7 "ieee".toList calls1 >>= fun p => .ok (text p .stderr, text p (.file "out.7".toList), p.ended))
    = .ok ("Warning [ieee]: prog: b\nError [ieee]: prog: c\n".toList, [], some 1) := by decide +kernel

example : (run host1 (fun n => if n = "VFC_BACKENDS_LOGFILE".toList then some "out".toList else none) 7
      "ieee".toList (calls1.take 2) >>= fun p => .ok (text p .stderr, text p (.file "out.7".toList), p.ended))
    = .ok ("Warning [ieee]: prog: b\n".toList, "Info [ieee]: a".toList, none) := by decide +kernel

example : CanLog host1 env1 7 := by
  intro base hb
  have : base = "out".toList := by
    have : env1 "VFC_BACKENDS_LOGFILE".toList = some "out".toList := by decide +kernel
    rw [this] at hb; exact (Option.some.inj hb).symm
  subst this
  decide +kernel

/-- **C92 (disabled).**  With the logger disabled, calls that are neither warnings nor errors leave no trace
on any stream. -/
theorem C92_disabled (h : Host) (e : Env) (tid : Nat) (name : CStr) (cs : List Call)
    (hl : CanLog h e tid) (hoff : ¬ On e) (hc : ∀ c ∈ cs, c.level = .debug ∨ c.level = .info) :
    ∃ p, run h e tid name cs = .ok p ∧ p.ended = none ∧ ∀ s, text p s = [] := by
  obtain ⟨p, h1, h2, _, h4⟩ := C92_text_partial h e tid name cs hl
  refine ⟨p, h1, h4.2 (fun c hm he => ?_), fun s => ?_⟩
  · rcases hc c hm with h | h <;> rw [h] at he <;> cases he
  · rw [h2]
    have hsub : ∀ cs : List Call, ∀ c ∈ upToError cs, c ∈ cs := by
      intro cs
      induction cs with
      | nil => intro c hc; cases hc
      | cons d cs ih =>
        intro c hc
        unfold upToError at hc
        split at hc
        · rw [List.mem_singleton.1 hc]; exact List.mem_cons_self ..
        · rcases List.mem_cons.1 hc with h | h
          · rw [h]; exact List.mem_cons_self ..
          · exact List.mem_cons_of_mem _ (ih c h)
    rw [List.flatMap_eq_nil_iff]
    intro c hm
    have hw : ¬ Wanted e c.level := fun h => hoff h.1
    have ht : c.level.isTrace = true := by rcases hc c (hsub cs c hm) with h | h <;> rw [h] <;> rfl
    simp [line, ht, hw]

/-- **C92 (negation: suppression).**  "To suppress the messages displayed by the logger, export
`VFC_BACKENDS_LOGGER`" (doc/02-Backends.md:78-83): a warning is displayed with the logger disabled
and at level `error`. -/
theorem C92_silence_wrong : ∃ (e : Env), ¬ On e ∧ Asks e .error ∧ ¬ Wanted e .warning ∧
    ∀ (h : Host) (tid : Nat) (name msg : CStr),
      ∃ p, run h e tid name [⟨tid, .warning, msg⟩] = .ok p ∧
        text p .stderr = h.prog ++ ": ".toList ++ msg ++ "\n".toList := by
  let e : Env := fun n => if n = "VFC_BACKENDS_LOGGER".toList then some "False".toList
    else if n = "VFC_BACKENDS_LOGGER_LEVEL".toList then some "error".toList else none
  have h0 : e "VFC_BACKENDS_LOGFILE".toList = none := by decide +kernel
  have h1 : e "VFC_BACKENDS_LOGGER".toList = some "False".toList := by decide +kernel
  have h2 : e "VFC_BACKENDS_LOGGER_LEVEL".toList = some "error".toList := by decide +kernel
  have hoff : ¬ On e := fun h => absurd (h _ h1) (by decide +kernel)
  refine ⟨e, hoff, ⟨_, h2, by decide +kernel⟩, fun h => hoff h.1, ?_⟩
  intro h tid name msg
  obtain ⟨p, h3, h4, _⟩ := C92_text_partial h e tid name [⟨tid, .warning, msg⟩]
    (fun base hb => by rw [h0] at hb; cases hb)
  refine ⟨p, h3, ?_⟩
  rw [h4]
  have hw : ¬ Wanted e .warning := fun h => hoff h.1
  simp [upToError, dest, Level.isTrace, line, hw]

/-- **C92 (errors).**  The first error is printed on the standard error and ends the process with status 1, whatever
the environment asks for and whatever calls follow. -/
theorem C92_error (h : Host) (e : Env) (tid : Nat) (name : CStr) (before after : List Call) (t : Nat) (msg : CStr)
    (hl : CanLog h e tid) (hb : ∀ c ∈ before, c.level ≠ .error) :
    ∃ p, run h e tid name (before ++ ⟨t, .error, msg⟩ :: after) = .ok p ∧ p.ended = some 1 ∧
      (h.prog ++ ": ".toList ++ msg ++ "\n".toList) <:+ text p .stderr ∧
      run h e tid name (before ++ [⟨t, .error, msg⟩]) >>= (fun q => .ok (text q)) = .ok (text p) := by
  obtain ⟨p, h1, h2, h3, _⟩ := C92_text_partial h e tid name (before ++ ⟨t, .error, msg⟩ :: after) hl
  obtain ⟨q, k1, k2, _⟩ := C92_text_partial h e tid name (before ++ [⟨t, .error, msg⟩]) hl
  have hu : ∀ (l r : List Call), (∀ c ∈ l, c.level ≠ .error) →
      upToError (l ++ ⟨t, .error, msg⟩ :: r) = l ++ [⟨t, .error, msg⟩] := by
    intro l r
    induction l with
    | nil => intro _; simp [upToError]
    | cons c l ih =>
      intro hl
      simp only [List.cons_append]
      rw [upToError, if_neg (hl c (List.mem_cons_self ..)), ih (fun d hd => hl d (List.mem_cons_of_mem _ hd))]
  refine ⟨p, h1, h3.2 ⟨⟨t, .error, msg⟩, by simp, rfl⟩, ?_, ?_⟩
  · rw [h2, hu _ _ hb, List.flatMap_append]
    have hd : dest e tid .error = .stderr := by simp [dest, Level.isTrace]
    simp only [List.flatMap_cons, List.flatMap_nil, List.append_nil, hd, if_true, line, Level.isTrace]
    simp only [Bool.false_eq_true, if_false]
    rw [← List.append_assoc]
    exact List.suffix_append _ _
  · rw [k1, Outcome.bind_ok]
    congr 1
    funext s
    rw [k2, h2, hu _ _ hb, hu _ _ hb]

/-- **C92 (levels).**  Of two environments that differ in the verbosity, everything the quieter one writes
is also written, on the same stream and in the same order, by the other. -/
theorem C92_levels (h : Host) (e e' : Env) (tid : Nat) (name : CStr) (cs : List Call)
    (hl : CanLog h e tid) (hl' : CanLog h e' tid)
    (hf : e "VFC_BACKENDS_LOGFILE".toList = e' "VFC_BACKENDS_LOGFILE".toList)
    (hcol : e "VFC_BACKENDS_COLORED_LOGGER".toList = e' "VFC_BACKENDS_COLORED_LOGGER".toList)
    (hq : ∀ l, Wanted e l → Wanted e' l) :
    ∃ p p', run h e tid name cs = .ok p ∧ run h e' tid name cs = .ok p' ∧ ∀ s, (text p s).Sublist (text p' s) := by
  obtain ⟨p, h1, h2, _⟩ := C92_text_partial h e tid name cs hl
  obtain ⟨p', k1, k2, _⟩ := C92_text_partial h e' tid name cs hl'
  refine ⟨p, p', h1, k1, fun s => ?_⟩
  rw [h2, k2]
  have hd : ∀ l, dest e tid l = dest e' tid l := by intro l; unfold dest; rw [hf]
  have hh : ∀ l, headerSpec e name l = headerSpec e' name l := by
    intro l
    have : Colored e ↔ Colored e' := by unfold Colored; rw [hcol]
    unfold headerSpec
    by_cases hc : Colored e
    · rw [if_pos hc, if_pos (this.1 hc)]
    · rw [if_neg hc, if_neg (fun h => hc (this.2 h))]
  induction upToError cs with
  | nil => exact List.Sublist.refl _
  | cons c cs ih =>
    simp only [List.flatMap_cons]
    refine List.Sublist.append ?_ ih
    rw [hd]
    by_cases hs : dest e' tid c.level = s
    · rw [if_pos hs, if_pos hs]
      unfold line
      rw [hh]
      by_cases ht : c.level.isTrace = true
      · rw [if_pos ht, if_pos ht]
        by_cases hw : Wanted e c.level
        · rw [if_pos hw, if_pos (hq _ hw)]; exact List.Sublist.refl _
        · rw [if_neg hw]; exact List.nil_sublist _
      · rw [if_neg ht, if_neg ht]
        refine List.Sublist.append ?_ (List.Sublist.refl _)
        by_cases hw : Wanted e c.level
        · rw [if_pos hw, if_pos (hq _ hw)]; exact List.Sublist.refl _
        · rw [if_neg hw]; exact List.nil_sublist _
    · rw [if_neg hs, if_neg hs]; exact List.Sublist.refl _

/-- **C92 (negation: names).**  A name for the log file with which the buffer overflows: exactly those
that, with the dot, the number of the thread and the closing NUL, exceed 1024 characters. -/
theorem C92_name_wrong (h : Host) (e : Env) (tid : Nat) (name base : CStr) (cs : List Call)
    (hb : e "VFC_BACKENDS_LOGFILE".toList = some base) :
    run h e tid name cs = .ub ↔ 1024 < base.length + 1 + (toString tid).length + 1 := by
  by_cases hlen : 1024 < base.length + 1 + (toString tid).length + 1
  · refine ⟨fun _ => hlen, fun _ => ?_⟩
    unfold run init setLogfile
    simp only [Vars.initial, hb]
    rw [if_pos (by rw [fileName_length]; omega)]
    rfl
  · refine ⟨fun hu => ?_, fun hx => absurd hx hlen⟩
    exfalso
    by_cases ho : h.canOpen (base ++ '.' :: (toString tid).toList) = true
    · obtain ⟨p, h1, _⟩ := C92_text_partial h e tid name cs
        (fun b hb' => by rw [hb] at hb'; cases hb'; exact ⟨by omega, ho⟩)
      rw [h1] at hu; cases hu
    · unfold run init setLogfile at hu
      simp only [Vars.initial, hb] at hu
      rw [if_neg (by rw [fileName_length]; omega), if_neg (by rw [fileName_eq]; exact ho)] at hu
      rw [Outcome.bind_ok, calls_ended h _ 1 _ _ rfl] at hu
      cases hu

example : run host1 (fun n => if n = "VFC_BACKENDS_LOGFILE".toList then some (List.replicate 1022 'x') else none)
    7 [] [] = .ub := by
  refine (C92_name_wrong _ _ _ _ (List.replicate 1022 'x') _ (by decide +kernel)).2 ?_
  rw [List.length_replicate, show (toString 7).length = 1 by decide +kernel]
  omega

/-- **C92 (negation: reason).**  When the file cannot be opened the process ends with status 1, but
the message is that of the error number 0, "Success", whatever the reason. -/
theorem C92_reason_wrong (h : Host) (e : Env) (tid : Nat) (name base : CStr) (cs : List Call)
    (hb : e "VFC_BACKENDS_LOGFILE".toList = some base) (hlen : base.length + 1 + (toString tid).length < 1024)
    (ho : h.canOpen (base ++ '.' :: (toString tid).toList) = false) :
    run h e tid name cs = .ok ⟨[(.stderr, h.prog ++ ": ".toList ++
      ("Error [".toList ++ name ++ "]: ".toList ++ h.strerror 0) ++ "\n".toList)], some 1⟩ := by
  unfold run init setLogfile
  simp only [Vars.initial, hb]
  rw [if_neg (by rw [fileName_length]; omega), if_neg (by rw [fileName_eq, ho]; decide)]
  rw [Outcome.bind_ok, calls_ended h _ 1 _ _ rfl]
  rfl

/-- **C92 (negation: threads).**  The file is said to be "specific to TID" (:189): a message of another
thread goes to the file of the thread that initialised the logger, and none is ever written in a file of its
own. -/
theorem C92_threads_wrong (h : Host) (e : Env) (tid t : Nat) (name base msg : CStr) (hl : CanLog h e tid)
    (hb : e "VFC_BACKENDS_LOGFILE".toList = some base) (ht : toString t ≠ toString tid) (hw : Wanted e .info) :
    ∃ p, run h e tid name [⟨t, .info, msg⟩] = .ok p ∧
      text p (.file (base ++ '.' :: (toString tid).toList)) = headerSpec e name .info ++ msg ∧
      text p (.file (base ++ '.' :: (toString t).toList)) = [] := by
  obtain ⟨p, h1, h2, _⟩ := C92_text_partial h e tid name [⟨t, .info, msg⟩] hl
  have hd : dest e tid .info = .file (base ++ '.' :: (toString tid).toList) := by
    unfold dest; rw [hb]; rfl
  refine ⟨p, h1, ?_, ?_⟩
  · rw [h2]
    simp [upToError, hd, line, Level.isTrace, hw]
  · rw [h2]
    have hne : ¬ (toString tid).toList = (toString t).toList := fun h => ht (String.toList_inj.1 h).symm
    have hne' : ¬ (Stream.file (base ++ '.' :: (toString tid).toList) = Stream.file (base ++ '.' :: (toString t).toList)) := by
      intro h
      have := Stream.file.inj h
      exact hne (List.cons.inj (List.append_cancel_left this)).2
    simp only [upToError, reduceCtorEq, if_false, List.flatMap_cons, List.flatMap_nil, List.append_nil, hd]
    rw [if_neg hne']

end Verif.Logger
