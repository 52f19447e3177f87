import Verif.Stdlib.Handlers

/-!
# Services of the host: properties (C93)

The look-up by name is exact; the wrapper gives every backend all it calls, the standard
library function of the same name or a function of its own; and for four of the six backends the tests
of `pre_init` are enough for any host.  For `bitmask` and `cancellation` they are not.
-/

namespace Verif.Stdlib
open Verif

/-- No NUL inside: what a C string can hold. -/
def NoNul (s : CStr) : Prop := ∀ c ∈ s, c ≠ nul

theorem charAt_lt {s : CStr} {i : Nat} (h : i < s.length) : charAt s i = .ok s[i] := by
  simp [charAt, h]

theorem charAt_len (s : CStr) : charAt s s.length = .ok nul := by
  simp [charAt]

/-- The loop stops where the strings differ or end, or after the limit, and reads nothing past the
end of either. -/
theorem eqLoop_spec (a b : CStr) (ha : NoNul a) (hb : NoNul b) :
    ∀ fuel i, i ≤ lengthLimit + 1 → lengthLimit + 2 ≤ fuel + i → a.take i = b.take i → i ≤ a.length → i ≤ b.length →
      ∃ j, eqLoop a b fuel i = .ok j ∧ j ≤ a.length ∧ j ≤ b.length ∧ a.take j = b.take j ∧
        (j = a.length ∧ j = b.length ∧ j ≤ lengthLimit + 1 ∨
          ¬ (j = a.length ∧ j = b.length) ∧ (j = lengthLimit + 1 ∨ a ≠ b)) := by
  intro fuel
  induction fuel with
  | zero => intro i h1 h2 _ _ _; omega
  | succ n ih =>
    intro i h1 h2 ht hla hlb
    unfold eqLoop
    rcases Nat.lt_or_ge i a.length with hia | hia <;> rcases Nat.lt_or_ge i b.length with hib | hib
    · rw [charAt_lt hia, charAt_lt hib]
      simp only [Outcome.bind_ok]
      by_cases hc : a[i] = b[i] ∧ a[i] ≠ nul ∧ b[i] ≠ nul ∧ i ≤ lengthLimit
      · rw [if_pos hc]
        refine ih (i + 1) (by omega) (by omega) ?_ hia hib
        rw [List.take_succ_eq_append_getElem hia, List.take_succ_eq_append_getElem hib, ht, hc.1]
      · rw [if_neg hc]
        refine ⟨i, rfl, hla, hlb, ht, Or.inr ⟨by omega, ?_⟩⟩
        by_cases he : i = lengthLimit + 1
        · exact Or.inl he
        · right
          intro hab
          apply hc
          subst hab
          exact ⟨rfl, ha _ (List.getElem_mem hia), ha _ (List.getElem_mem hia), by omega⟩
    · have hb' : i = b.length := by omega
      subst hb'
      rw [charAt_lt hia, charAt_len]
      simp only [Outcome.bind_ok]
      have hn : a[b.length] ≠ nul := ha _ (List.getElem_mem hia)
      rw [if_neg (fun h => hn h.1)]
      refine ⟨_, rfl, hla, Nat.le_refl _, ht, Or.inr ⟨by omega, Or.inr ?_⟩⟩
      intro hab; subst hab; omega
    · have ha' : i = a.length := by omega
      subst ha'
      rw [charAt_len, charAt_lt hib]
      simp only [Outcome.bind_ok]
      have hn : b[a.length] ≠ nul := hb _ (List.getElem_mem hib)
      rw [if_neg (fun h => hn h.1.symm)]
      refine ⟨_, rfl, Nat.le_refl _, hlb, ht, Or.inr ⟨by omega, Or.inr ?_⟩⟩
      intro hab; subst hab; omega
    · have ha' : i = a.length := by omega
      have hb' : a.length = b.length := by omega
      subst ha'
      have h3 : charAt b a.length = .ok nul := by rw [hb']; exact charAt_len b
      rw [charAt_len, h3]
      simp only [Outcome.bind_ok]
      rw [if_neg (fun h => h.2.1 rfl)]
      exact ⟨_, rfl, Nat.le_refl _, hlb, ht, Or.inl ⟨rfl, hb', h1⟩⟩

/-- **C93 (comparison).**  `__string_equal` reads nothing past the end of its arguments and answers
whether they are the same string, for strings of at most 2049 characters. -/
theorem C93_string_equal (a b : CStr) (ha : NoNul a) (hb : NoNul b) :
    stringEqual (some a) (some b) = .ok (decide (a = b ∧ a.length ≤ 2049)) := by
  obtain ⟨j, hj, h1, h2, h3, h4⟩ := eqLoop_spec a b ha hb (lengthLimit + 2) 0 (by omega) (by omega)
    (by simp) (by omega) (by omega)
  simp only [stringEqual, hj, Outcome.bind_ok]
  rcases h4 with ⟨h5, h6, h7⟩ | ⟨h5, h6⟩
  · have hab : a = b := by
      have := h3
      rwa [List.take_of_length_le (by omega), List.take_of_length_le (by omega)] at this
    subst hab
    subst h5
    rw [charAt_len]
    simp only [Outcome.bind_ok, lengthLimit] at *
    simp; omega
  · have hne : ¬ (a = b ∧ a.length ≤ 2049) := by
      rintro ⟨hab, hl⟩
      subst hab
      rcases h6 with h6 | h6
      · apply h5
        simp only [lengthLimit] at h6
        omega
      · exact h6 rfl
    rw [decide_eq_false hne]
    rcases Nat.lt_or_ge j a.length with hia | hia
    · rw [charAt_lt hia]
      have hn : a[j] ≠ nul := ha _ (List.getElem_mem hia)
      rcases Nat.lt_or_ge j b.length with hib | hib
      · rw [charAt_lt hib]; simp [hn]
      · have : j = b.length := by omega
        have h8 : charAt b j = .ok nul := by rw [this]; exact charAt_len b
        rw [h8]; simp [hn]
    · have hja : j = a.length := by omega
      have h8 : charAt a j = .ok nul := by rw [hja]; exact charAt_len a
      rcases Nat.lt_or_ge j b.length with hib | hib
      · have hn : b[j] ≠ nul := hb _ (List.getElem_mem hib)
        rw [charAt_lt hib, h8]; simp [hn]
      · exact absurd ⟨hja, by omega⟩ h5

example : stringEqual (some "strtol".toList) (some "strtok_r".toList) = .ok false ∧
    stringEqual (some "free".toList) (some "free".toList) = .ok true ∧
    stringEqual (some "str".toList) (some "strcmp".toList) = .ok false := by decide +kernel

/-- **C93 (negation for long strings).**  Two copies of a string of more than 2049 characters are
told apart. -/
theorem C93_long_wrong : ∃ s : CStr, NoNul s ∧ stringEqual (some s) (some s) = .ok false := by
  have hs : NoNul (List.replicate 2050 'a') := by
    intro c hc
    rw [List.eq_of_mem_replicate hc]; decide
  refine ⟨_, hs, ?_⟩
  rw [C93_string_equal _ _ hs hs]
  simp only [List.length_replicate]
  rfl

/-- The pointers declared in interflop_stdlib.h:102-133. -/
def declared : List CStr := ["malloc", "fopen", "panic", "strcmp", "strcasecmp", "strtol", "strtod",
  "getenv", "fprintf", "strcpy", "strncpy", "fclose", "gettid", "strerror", "sprintf", "vwarnx",
  "vfprintf", "exit", "strtok_r", "fgets", "free", "calloc", "argp_parse", "nanHandler",
  "infHandler", "maxHandler", "cancellationHandler", "denormalHandler", "debug_print_op",
  "gettimeofday", "register_printf_specifier"].map String.toList

theorem setFrom_spec {F : Type} (name : CStr) (hn : NoNul name) (f : Option F) (t : Table F) :
    ∀ ns : List CStr, (∀ n ∈ ns, NoNul n ∧ n.length ≤ 2049) →
      setFrom name f t ns = .ok (if name ∈ ns then t.put name f else t) := by
  intro ns
  induction ns with
  | nil => intro _; rfl
  | cons n ns ih =>
    intro h
    have h1 := h n (List.mem_cons_self ..)
    unfold setFrom
    rw [C93_string_equal name n hn h1.1]
    simp only [Outcome.bind_ok]
    by_cases he : name = n
    · subst he
      rw [if_pos (by simpa using h1.2), if_pos (List.mem_cons_self ..)]
    · rw [if_neg (by simp [he]), ih (fun m hm => h m (List.mem_cons_of_mem _ hm))]
      simp [he]

instance (s : CStr) : Decidable (NoNul s) := inferInstanceAs (Decidable (∀ c ∈ s, c ≠ nul))

/-- **C93 (setting).**  `interflop_set_handler` sets the pointer declared under the given name and no
other; an undeclared name, or a null one, changes nothing. -/
theorem C93_set {F : Type} (name : CStr) (hn : NoNul name) (f : Option F) (t : Table F) :
    (∃ t', setHandler (some name) f t = .ok t' ∧
      (name ∈ declared → t' name = f) ∧ ∀ m, (m ≠ name ∨ m ∉ declared) → t' m = t m) ∧
    setHandler none f t = .ok t := by
  refine ⟨⟨_, setFrom_spec name hn f t chain (by decide +kernel), ?_, ?_⟩, rfl⟩
  · intro h
    rw [if_pos (show name ∈ chain from h)]
    simp [Table.put]
  · intro m hm
    by_cases h : name ∈ chain
    · rw [if_pos h]
      rcases hm with hm | hm
      · simp [Table.put, hm]
      · have : m ≠ name := fun he => hm (he ▸ h)
        simp [Table.put, this]
    · rw [if_neg h]

example : (setHandler (some "strtod".toList) (some 1) (Table.empty (F := Nat)) >>= fun t =>
    .ok (declared.filterMap t)) = .ok [1] ∧
    (setHandler (some "printf".toList) (some 1) (Table.empty (F := Nat)) >>= fun t =>
    .ok (declared.filterMap t)) = .ok [] := by decide +kernel

theorem check_ok {F : Type} (t : Table F) : ∀ ns, check t ns = .ok () → ∀ n ∈ ns, ∃ f, t n = some f := by
  intro ns
  induction ns with
  | nil => intro _ n hn; cases hn
  | cons m ns ih =>
    intro h n hn
    unfold check at h
    by_cases hm : (t m).isNone
    · rw [if_pos hm] at h
      split at h <;> cases h
    · rw [if_neg hm] at h
      rcases List.mem_cons.1 hn with rfl | hn
      · cases ht : t n with
        | none => rw [ht] at hm; exact absurd rfl hm
        | some f => exact ⟨f, rfl⟩
      · exact ih h n hn

theorem check_pass {F : Type} (t : Table F) : ∀ ns, (∀ n ∈ ns, (t n).isSome) → check t ns = .ok () := by
  intro ns
  induction ns with
  | nil => intro _; rfl
  | cons m ns ih =>
    intro h
    unfold check
    have := h m (List.mem_cons_self ..)
    rw [if_neg (by rw [Option.isNone_iff_eq_none]; intro he; rw [he] at this; cases this)]
    exact ih (fun n hn => h n (List.mem_cons_of_mem _ hn))

theorem set_panic {F : Type} (p : Option F) (t : Table F) :
    setHandler (some "panic".toList) p t = .ok (t.put "panic".toList p) := by
  have h := setFrom_spec "panic".toList (by decide +kernel) p t chain (by decide +kernel)
  rw [if_pos (by decide +kernel)] at h
  exact h

/-- What a successful `pre_init` tells about the pointers. -/
theorem preInit_ok {F : Type} {b : Backend} {p : Option F} {t t' : Table F} (h : preInit b p t = .ok t') :
    t' = t.put "panic".toList p ∧
      ∀ n ∈ (services b).checked ++ loggerServices.checked, ∃ f, t' n = some f := by
  unfold preInit at h
  have h2 : (t.put "panic".toList p).put "panic".toList p = t.put "panic".toList p := by
    funext m; simp only [Table.put]; split <;> rfl
  rw [set_panic, Outcome.bind_ok] at h
  cases h3 : check (t.put "panic".toList p) (services b).checked with
  | exit => rw [h3] at h; cases h
  | ub => rw [h3] at h; cases h
  | ok u =>
    rw [h3, Outcome.bind_ok, set_panic, Outcome.bind_ok, h2] at h
    cases h4 : check (t.put "panic".toList p) loggerServices.checked with
    | exit => rw [h4] at h; cases h
    | ub => rw [h4] at h; cases h
    | ok v =>
      rw [h4, Outcome.bind_ok] at h
      have h5 := Outcome.ok.inj h
      refine ⟨h5.symm, ?_⟩
      intro n hn
      rw [← h5]
      rcases List.mem_append.1 hn with hn | hn
      · exact check_ok _ _ h3 n hn
      · exact check_ok _ _ h4 n hn

/-- The backends whose tests cover all they call. -/
def Covered : Backend → Bool
  | .ieee | .mcaquad | .mcaint | .vprec => true
  | .bitmask | .cancellation => false

/-- **C93 (any host).**  Whatever services a host sets, and with any panic function: if `pre_init` of the
IEEE, MCA, integer MCA or VPREC backend goes through, no pointer the backend or its logger calls without
a test is null.  Missing: the bitmask and cancellation backends, of which it is false
(`C93_checked_wrong`). -/
theorem C93_checked_partial {F : Type} (b : Backend) (hb : Covered b = true) (p : F) (t t' : Table F)
    (h : preInit b (some p) t = .ok t') :
    ∀ n ∈ (services b).called ++ loggerServices.called, ∃ f, t' n = some f := by
  obtain ⟨h1, h2⟩ := preInit_ok h
  intro n hn
  have h3 : n ∈ (services b).checked ++ loggerServices.checked ∨ n = "panic".toList := by
    cases b
    case ieee => revert n; decide +kernel
    case mcaquad => revert n; decide +kernel
    case mcaint => revert n; decide +kernel
    case vprec => revert n; decide +kernel
    all_goals cases hb
  rcases h3 with h3 | h3
  · exact h2 n h3
  · subst h3
    exact ⟨p, by rw [h1]; simp [Table.put]⟩

/-- **C93 (negation).**  A host that gives neither `strtol` nor `gettimeofday` passes the tests of the
bitmask and of the cancellation backend, which call both. -/
theorem C93_checked_wrong : ∀ b, Covered b = false →
    ∃ (t t' : Table Unit), preInit b (some ()) t = .ok t' ∧
      ∀ n ∈ ["strtol".toList, "gettimeofday".toList], n ∈ (services b).called ∧ t' n = none := by
  intro b hb
  let t : Table Unit := fun n => if n ∈ loggerServices.checked ++ ["malloc".toList] then some () else none
  refine ⟨t, t.put "panic".toList (some ()), ?_, ?_⟩
  · unfold preInit
    have h2 : (t.put "panic".toList (some ())).put "panic".toList (some ()) = t.put "panic".toList (some ()) := by
      funext m; simp only [Table.put]; split <;> rfl
    rw [set_panic, Outcome.bind_ok, check_pass, Outcome.bind_ok, set_panic, Outcome.bind_ok, h2,
      check_pass, Outcome.bind_ok]
    · decide +kernel
    · cases b
      case bitmask => decide +kernel
      case cancellation => decide +kernel
      all_goals cases hb
  · cases b
    case bitmask => decide +kernel
    case cancellation => decide +kernel
    all_goals cases hb

theorem setAll_spec {F : Type} : ∀ (l : List (CStr × Option F)) (t : Table F),
    (∀ x ∈ l, x.1 ∈ declared) →
    setAll l t = .ok (l.foldl (fun t x => t.put x.1 x.2) t) := by
  intro l
  induction l with
  | nil => intro t _; rfl
  | cons x l ih =>
    intro t h
    obtain ⟨n, f⟩ := x
    have hn : n ∈ declared := h (n, f) (List.mem_cons_self ..)
    have hnn : NoNul n := by
      have : ∀ m ∈ declared, NoNul m := by decide +kernel
      exact this n hn
    unfold setAll
    have h1 := setFrom_spec n hnn f t chain (by decide +kernel)
    rw [if_pos (show n ∈ chain from hn)] at h1
    have h2 : setHandler (some n) f t = .ok (t.put n f) := h1
    rw [h2, Outcome.bind_ok, ih _ (fun y hy => h y (List.mem_cons_of_mem _ hy))]
    rfl

/-- The services the wrapper implements itself (main.c.in:299-317, 335-345, 382-385). -/
def ownServices : List CStr := ["gettid", "strtol", "strtod", "panic", "infHandler", "nanHandler",
  "cancellationHandler", "denormalHandler", "maxHandler"].map String.toList

/-- **C93 (wrapper).**  Started by the wrapper, every backend passes its tests, and afterwards every
declared pointer but `debug_print_op`, which no backend calls, is set: to the function
of the C library with the same name, or to one of the wrapper for its own services. -/
theorem C93_wrapper (b : Backend) :
    ∃ t, startBackend b = .ok t ∧
      (∀ n ∈ (services b).called ++ loggerServices.called, n ∈ declared ∧ n ≠ "debug_print_op".toList) ∧
      ∀ n ∈ declared, n ≠ "debug_print_op".toList →
        (n ∉ ownServices → t n = some (.libc n)) ∧ (n ∈ ownServices → ∃ f, t n = some (.wrapper f)) := by
  have h0 : ∀ x ∈ wrapperHandlers, x.1 ∈ declared := by decide +kernel
  have h1 := setAll_spec wrapperHandlers Table.empty h0
  let t0 := wrapperHandlers.foldl (fun t x => Table.put t x.1 x.2) (Table.empty (F := Fn))
  let p : Option Fn := some (.wrapper "_vfc_panic".toList)
  refine ⟨t0.put "panic".toList p, ?_, ?_, ?_⟩
  · unfold startBackend
    rw [h1, Outcome.bind_ok]
    unfold preInit
    have h2 : (t0.put "panic".toList p).put "panic".toList p = t0.put "panic".toList p := by
      funext m; simp only [Table.put]; split <;> rfl
    rw [set_panic, Outcome.bind_ok, check_pass, Outcome.bind_ok, set_panic, Outcome.bind_ok]
    · change (check ((t0.put "panic".toList p).put "panic".toList p) _ >>= _) = _
      rw [h2, check_pass, Outcome.bind_ok]
      decide +kernel
    · cases b <;> decide +kernel
  · cases b <;> decide +kernel
  · have h3 : ∀ n ∈ declared, n ≠ "debug_print_op".toList →
        (n ∉ ownServices → (t0.put "panic".toList p) n = some (.libc n)) ∧
        (n ∈ ownServices → ((t0.put "panic".toList p) n).any (fun f => match f with | .wrapper _ => true | .libc _ => false)) := by
      decide +kernel
    intro n hn hd
    refine ⟨(h3 n hn hd).1, fun ho => ?_⟩
    have h4 := (h3 n hn hd).2 ho
    generalize (t0.put "panic".toList p) n = o at h4
    match o, h4 with
    | some (.wrapper f), _ => exact ⟨f, rfl⟩

example : (startBackend .vprec >>= fun t => .ok (t "strtok_r".toList, t "strtol".toList, t "debug_print_op".toList))
    = .ok (some (.libc "strtok_r".toList), some (.wrapper "_vfc_strtol".toList), none) := by decide +kernel

end Verif.Stdlib
