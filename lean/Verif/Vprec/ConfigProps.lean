import Verif.Vprec.Config

/-!
# C10: the configuration stays within its limits
-/

namespace Verif.Vprec.Config
open Verif

/-- The documented limits. -/
structure InLimits (c : Cfg) : Prop where
  p32 : 1 ≤ c.prec32 ∧ c.prec32 ≤ 23
  r32 : 2 ≤ c.range32 ∧ c.range32 ≤ 8
  p64 : 1 ≤ c.prec64 ∧ c.prec64 ≤ 52
  r64 : 2 ≤ c.range64 ∧ c.range64 ≤ 11

/-- The four numbers a request may not push out of their limits. -/
def Cfg.fmt (c : Cfg) : Int × Int × Int × Int := (c.prec32, c.range32, c.prec64, c.range64)

section helpers

theorem bind_ok_inv {α β : Type} {o : Outcome α} {f : α → Outcome β} {b : β}
    (h : o >>= f = .ok b) : ∃ a, o = .ok a ∧ f a = .ok b := by
  cases o with
  | ok a => exact ⟨a, rfl, h⟩
  | exit => simp at h
  | ub => simp at h

theorem setPrec32_inv {v : Int} {c d : Cfg} (hc : InLimits c) (h : setPrec32 v c = .ok d) : InLimits d := by
  unfold setPrec32 at h
  split_ifs at h with h1 h2
  injection h with h; subst h
  exact ⟨by constructor <;> simp only <;> omega, hc.r32, hc.p64, hc.r64⟩

theorem setRange32_inv {v : Int} {c d : Cfg} (hc : InLimits c) (h : setRange32 v c = .ok d) : InLimits d := by
  unfold setRange32 at h
  split_ifs at h with h1 h2
  injection h with h; subst h
  exact ⟨hc.p32, by constructor <;> simp only <;> omega, hc.p64, hc.r64⟩

theorem setPrec64_inv {v : Int} {c d : Cfg} (hc : InLimits c) (h : setPrec64 v c = .ok d) : InLimits d := by
  unfold setPrec64 at h
  split_ifs at h with h1 h2
  injection h with h; subst h
  exact ⟨hc.p32, hc.r32, by constructor <;> simp only <;> omega, hc.r64⟩

theorem setRange64_inv {v : Int} {c d : Cfg} (hc : InLimits c) (h : setRange64 v c = .ok d) : InLimits d := by
  unfold setRange64 at h
  split_ifs at h with h1 h2
  injection h with h; subst h
  exact ⟨hc.p32, hc.r32, hc.p64, by constructor <;> simp only <;> omega⟩

theorem setMode_fmt {m : Nat} {c d : Cfg} (h : setMode m c = .ok d) : d.fmt = c.fmt := by
  unfold setMode at h
  split at h <;> first | (injection h with h; subst h; rfl) | exact absurd h (by simp)

theorem setErrMode_fmt {m : Nat} {c d : Cfg} (h : setErrMode m c = .ok d) : d.fmt = c.fmt := by
  unfold setErrMode at h
  split at h <;> first | (injection h with h; subst h; rfl) | exact absurd h (by simp)

theorem InLimits.of_fmt {c d : Cfg} (hc : InLimits c) (h : d.fmt = c.fmt) : InLimits d := by
  unfold Cfg.fmt at h
  simp only [Prod.mk.injEq] at h
  obtain ⟨h1, h2, h3, h4⟩ := h
  exact ⟨h1 ▸ hc.p32, h2 ▸ hc.r32, h3 ▸ hc.p64, h4 ▸ hc.r64⟩

theorem setAll_inv {p r : Int} {c d : Cfg} (hc : InLimits c) (h : setAll p r c = .ok d) : InLimits d := by
  unfold setAll at h
  obtain ⟨c1, h1, h⟩ := bind_ok_inv h
  obtain ⟨c2, h2, h⟩ := bind_ok_inv h
  obtain ⟨c3, h3, h⟩ := bind_ok_inv h
  exact setRange64_inv (setRange32_inv (setPrec64_inv (setPrec32_inv hc h1) h2) h3) h

theorem configure_inv {k : Conf} {c d : Cfg} (hc : InLimits c) (h : configure k c = .ok d) : InLimits d := by
  unfold configure at h
  obtain ⟨v, -, h⟩ := bind_ok_inv h
  obtain ⟨c1, h1, h⟩ := bind_ok_inv h
  obtain ⟨c2, h2, h⟩ := bind_ok_inv h
  obtain ⟨c3, h3, h⟩ := bind_ok_inv h
  obtain ⟨c4, h4, h⟩ := bind_ok_inv h
  obtain ⟨c5, h5, h⟩ := bind_ok_inv h
  obtain ⟨c6, h6, h⟩ := bind_ok_inv h
  obtain ⟨c7, h7, h⟩ := bind_ok_inv h
  have i4 := setRange64_inv (setRange32_inv (setPrec64_inv (setPrec32_inv hc h1) h2) h3) h4
  have i6 := (i4.of_fmt (setMode_fmt h5)).of_fmt (setErrMode_fmt h6)
  have i7 : InLimits c7 := by
    split at h7
    · injection h7 with h7; subst h7; exact i6
    · unfold setAbsErrExp at h7; injection h7 with h7; subst h7; exact i6.of_fmt rfl
  injection h with h
  subst h
  split_ifs <;> exact i7.of_fmt rfl

theorem cliInt_ok {lo hi : Int} {set : Int → Cfg → Outcome Cfg} {a : String} {c d : Cfg}
    (h : cliInt lo hi set a c = .ok d) : ∃ v, set v c = .ok d := by
  unfold cliInt at h
  split at h
  · exact absurd h (by simp)
  · simp only at h
    split_ifs at h
    exact ⟨_, h⟩

theorem step_inv (c d : Cfg) (q : Req) (hc : InLimits c) (h : step c q = .ok d) : InLimits d := by
  cases q with
  | cliPrec32 a => obtain ⟨v, h⟩ := cliInt_ok h; exact setPrec32_inv hc h
  | cliRange32 a => obtain ⟨v, h⟩ := cliInt_ok h; exact setRange32_inv hc h
  | cliPrec64 a => obtain ⟨v, h⟩ := cliInt_ok h; exact setPrec64_inv hc h
  | cliRange64 a => obtain ⟨v, h⟩ := cliInt_ok h; exact setRange64_inv hc h
  | cliMode a => exact hc.of_fmt (setMode_fmt h)
  | cliErrMode a => exact hc.of_fmt (setErrMode_fmt h)
  | cliErrExp a =>
    simp only [step] at h
    split at h
    · exact absurd h (by simp)
    · unfold setAbsErrExp at h; injection h with h; subst h; exact hc.of_fmt rfl
  | cliDaz => injection h with h; subst h; exact hc.of_fmt rfl
  | cliFtz => injection h with h; subst h; exact hc.of_fmt rfl
  | cliPreset a =>
    simp only [step] at h
    split at h
    · exact absurd h (by simp)
    · split at h
      · exact absurd h (by simp)
      · exact setAll_inv hc h
  | configure k => exact configure_inv hc h
  | callPrec32 v => exact setPrec32_inv hc h
  | callRange32 v => exact setRange32_inv hc h
  | callPrec64 v => exact setPrec64_inv hc h
  | callRange64 v => exact setRange64_inv hc h
  | callOther i => injection h with h; subst h; exact hc

end helpers

/-- C10: whatever the history of command line options, configuration structures and
`interflop_call` requests, a process still running has a configuration within the
limits. -/
theorem C10_limits_invariant (qs : List Req) (c : Cfg) (h : run init qs = .ok c) : InLimits c := by
  have gen : ∀ (qs : List Req) (c0 : Cfg), InLimits c0 → run c0 qs = .ok c → InLimits c := by
    intro qs
    induction qs with
    | nil => intro c0 h0 h; injection h with h; subst h; exact h0
    | cons q qs ih =>
      intro c0 h0 h
      obtain ⟨c1, h1, h2⟩ := bind_ok_inv h
      exact ih c1 (step_inv c0 c1 q h0 h1) h2
  exact gen qs init (by constructor <;> decide) h

/-- C10, run-time requests: a value within the limits is taken as it is and nothing
else changes; a value outside stops the program, the configuration is never changed
to it. -/
theorem C10_call_accepts (c : Cfg) (v : Int) :
    (step c (.callPrec32 v) = if 1 ≤ v ∧ v ≤ 23 then .ok { c with prec32 := v } else .exit) ∧
    (step c (.callRange32 v) = if 2 ≤ v ∧ v ≤ 8 then .ok { c with range32 := v } else .exit) ∧
    (step c (.callPrec64 v) = if 1 ≤ v ∧ v ≤ 52 then .ok { c with prec64 := v } else .exit) ∧
    (step c (.callRange64 v) = if 2 ≤ v ∧ v ≤ 11 then .ok { c with range64 := v } else .exit) := by
  simp only [step, setPrec32, setRange32, setPrec64, setRange64]
  refine ⟨?_, ?_, ?_, ?_⟩ <;> split_ifs <;> first | rfl | omega

/-- C10, presets: an accepted preset name selects the documented
(range, precision) pair for both types and touches nothing else. -/
theorem C10_presets (c : Cfg) (name : String) :
    step c (.cliPreset name) =
      (let set (r p : Int) : Outcome Cfg := .ok { c with prec32 := p, prec64 := p, range32 := r, range64 := r }
       if name = "binary16" then set 5 10
       else if name = "binary32" then set 8 23
       else if name = "bfloat16" then set 8 7
       else if name = "tensorfloat" then set 8 10
       else if name = "fp24" then set 7 16
       else if name = "PXR24" then set 8 15
       else .exit) := by
  by_cases h1 : name = "binary16"
  · subst h1; rfl
  by_cases h2 : name = "binary32"
  · subst h2; rfl
  by_cases h3 : name = "bfloat16"
  · subst h3; rfl
  by_cases h4 : name = "tensorfloat"
  · subst h4; rfl
  by_cases h5 : name = "fp24"
  · subst h5; rfl
  by_cases h6 : name = "PXR24"
  · subst h6; rfl
  have : presetName name = none := by
    unfold presetName; split <;> simp_all
  simp only [step, this, if_neg h1, if_neg h2, if_neg h3, if_neg h4, if_neg h5, if_neg h6]

/-- The help text offers a `binary64` preset; the parser refuses it. -/
theorem C10_preset_binary64_refused (c : Cfg) : step c (.cliPreset "binary64") = .exit := by
  rfl

/-- C10, the other options: the mode and error-mode names select what they say and
nothing else, unknown names exit; `--daz` and `--ftz` switch their flag on. -/
theorem C10_cli_modes (c : Cfg) :
    (step c (.cliMode "ieee") = .ok { c with mode := .ieee } ∧ step c (.cliMode "full") = .ok { c with mode := .full } ∧
      step c (.cliMode "ib") = .ok { c with mode := .ib } ∧ step c (.cliMode "ob") = .ok { c with mode := .ob }) ∧
    (step c (.cliErrMode "rel") = .ok { c with relErr := true, absErr := false } ∧
      step c (.cliErrMode "abs") = .ok { c with relErr := false, absErr := true } ∧
      step c (.cliErrMode "all") = .ok { c with relErr := true, absErr := true }) ∧
    (∀ s : String, s.toLower ∉ ["ieee", "full", "ib", "ob"] → step c (.cliMode s) = .exit) ∧
    (∀ s : String, s.toLower ∉ ["rel", "abs", "all"] → step c (.cliErrMode s) = .exit) ∧
    step c .cliDaz = .ok { c with daz := true } ∧ step c .cliFtz = .ok { c with ftz := true } := by
  have e : modeName "ieee" = 0 ∧ modeName "full" = 1 ∧ modeName "ib" = 2 ∧ modeName "ob" = 3 ∧
      errModeName "rel" = 0 ∧ errModeName "abs" = 1 ∧ errModeName "all" = 2 := by decide +kernel
  obtain ⟨e1, e2, e3, e4, e5, e6, e7⟩ := e
  refine ⟨⟨?_, ?_, ?_, ?_⟩, ⟨?_, ?_, ?_⟩, ?_, ?_, rfl, rfl⟩
  · simp only [step, e1]; rfl
  · simp only [step, e2]; rfl
  · simp only [step, e3]; rfl
  · simp only [step, e4]; rfl
  · simp only [step, e5]; rfl
  · simp only [step, e6]; rfl
  · simp only [step, e7]; rfl
  · intro s hs
    simp only [List.mem_cons, List.not_mem_nil, or_false, not_or] at hs
    have : modeName s = 4 := by
      unfold modeName
      split <;> simp_all
    simp only [step, this]; rfl
  · intro s hs
    simp only [List.mem_cons, List.not_mem_nil, or_false, not_or] at hs
    have : errModeName s = 3 := by
      unfold errModeName
      split <;> simp_all
    simp only [step, this]; rfl

/-- C10, `configure`: what an accepted configuration record selects. -/
theorem C10_configure (c c' : Cfg) (k : Conf) (h : step c (.configure k) = .ok c') :
    (∀ p r, (p, r) = (k.prec32, k.range32) ∧ k.preset = none ∨ (∃ i, k.preset = some i ∧ presetVal i = some (p, r)) →
      c'.prec32 = p ∧ c'.range32 = r) ∧
    (∀ p r, (p, r) = (k.prec64, k.range64) ∧ k.preset = none ∨ (∃ i, k.preset = some i ∧ presetVal i = some (p, r)) →
      c'.prec64 = p ∧ c'.range64 = r) ∧
    (c'.mode = .ieee ↔ k.mode = 0) ∧ (c'.mode = .full ↔ k.mode = 1) ∧ (c'.mode = .ib ↔ k.mode = 2) ∧
    (c'.mode = .ob ↔ k.mode = 3) ∧
    (c'.relErr = true ↔ k.errMode = 0 ∨ k.errMode = 2) ∧ (c'.absErr = true ↔ k.errMode = 1 ∨ k.errMode = 2) ∧
    (k.absErrExp = none → c'.absErrExp = c.absErrExp) ∧
    (∀ e, k.absErrExp = some e → -(2 ^ 31) ≤ e → e < 2 ^ 31 → c'.absErrExp = e) ∧
    c'.daz = (k.daz || c.daz) ∧ c'.ftz = (k.ftz || c.ftz) := by
  simp only [step, configure] at h
  obtain ⟨⟨v1, v2, v3, v4⟩, hv, h⟩ := bind_ok_inv h
  obtain ⟨c1, h1, h⟩ := bind_ok_inv h
  obtain ⟨c2, h2, h⟩ := bind_ok_inv h
  obtain ⟨c3, h3, h⟩ := bind_ok_inv h
  obtain ⟨c4, h4, h⟩ := bind_ok_inv h
  obtain ⟨c5, h5, h⟩ := bind_ok_inv h
  obtain ⟨c6, h6, h⟩ := bind_ok_inv h
  obtain ⟨c7, h7, h⟩ := bind_ok_inv h
  have hp : (∀ p r, (p, r) = (k.prec32, k.range32) ∧ k.preset = none ∨ (∃ i, k.preset = some i ∧ presetVal i = some (p, r)) →
      v1 = p ∧ v3 = r) ∧
      (∀ p r, (p, r) = (k.prec64, k.range64) ∧ k.preset = none ∨ (∃ i, k.preset = some i ∧ presetVal i = some (p, r)) →
      v2 = p ∧ v4 = r) := by
    constructor
    all_goals
      intro p r hpr
      rcases hpr with ⟨e1, e2⟩ | ⟨i, e1, e2⟩
      · rw [e2] at hv
        simp only [Outcome.ok.injEq, Prod.mk.injEq] at hv e1
        omega
      · rw [e1] at hv
        simp only [e2, Outcome.ok.injEq, Prod.mk.injEq] at hv
        omega
  have m1 : c1 = { c with prec32 := v1 } := by
    unfold setPrec32 at h1; split_ifs at h1; injection h1 with h1; exact h1.symm
  have m2 : c2 = { c1 with prec64 := v2 } := by
    unfold setPrec64 at h2; split_ifs at h2; injection h2 with h2; exact h2.symm
  have m3 : c3 = { c2 with range32 := v3 } := by
    unfold setRange32 at h3; split_ifs at h3; injection h3 with h3; exact h3.symm
  have m4 : c4 = { c3 with range64 := v4 } := by
    unfold setRange64 at h4; split_ifs at h4; injection h4 with h4; exact h4.symm
  have m5 : ∃ m, c5 = { c4 with mode := m } ∧ (m = .ieee ↔ k.mode = 0) ∧ (m = .full ↔ k.mode = 1) ∧
      (m = .ib ↔ k.mode = 2) ∧ (m = .ob ↔ k.mode = 3) := by
    unfold setMode at h5
    split at h5
    case h_5 => cases h5
    all_goals
      injection h5 with h5
      refine ⟨_, h5.symm, ?_⟩
      simp_all
  have m6 : ∃ r a, c6 = { c5 with relErr := r, absErr := a } ∧ (r = true ↔ k.errMode = 0 ∨ k.errMode = 2) ∧
      (a = true ↔ k.errMode = 1 ∨ k.errMode = 2) := by
    unfold setErrMode at h6
    split at h6
    case h_4 => cases h6
    all_goals
      injection h6 with h6
      refine ⟨_, _, h6.symm, ?_⟩
      simp_all
  have m7 : ∃ e, c7 = { c6 with absErrExp := e } ∧ (k.absErrExp = none → e = c6.absErrExp) ∧
      (∀ e', k.absErrExp = some e' → -(2 ^ 31) ≤ e' → e' < 2 ^ 31 → e = e') := by
    split at h7
    · rename_i hk
      injection h7 with h7
      exact ⟨c6.absErrExp, h7.symm, fun _ => rfl, fun e' he => by rw [hk] at he; cases he⟩
    · rename_i e hk
      injection h7 with h7
      refine ⟨toInt e, h7.symm, fun hn => (by rw [hk] at hn; cases hn), fun e' he h1 h2 => ?_⟩
      rw [hk] at he
      injection he with he
      unfold toInt; omega
  obtain ⟨m, m5, m51, m52, m53, m54⟩ := m5
  obtain ⟨r, a, m6, m61, m62⟩ := m6
  obtain ⟨e, m7, m71, m72⟩ := m7
  have m8 : c' = { c7 with daz := k.daz || c7.daz, ftz := k.ftz || c7.ftz } := by
    simp only [Outcome.pure_eq, Outcome.ok.injEq] at h
    subst h
    cases k.daz <;> cases k.ftz <;> rfl
  subst m8 m7 m6 m5 m4 m3 m2 m1
  exact ⟨hp.1, hp.2, m51, m52, m53, m54, m61, m62, m71, m72, rfl, rfl⟩

/-- A request outside the limits *is* honoured on the command line when its value
modulo `2^32` falls inside: `--precision-binary32=4294967297` selects 1. -/
theorem C10_cli_truncation (c : Cfg) :
    step c (.cliPrec32 "4294967297") = .ok { c with prec32 := 1 } := by
  have : strtol "4294967297".toList = some 4294967297 := by decide +kernel
  simp only [step, cliInt, this]
  rfl

/-- For every value that fits in an `int`, written in decimal, the command line
behaves as the run-time request does (the four numeric options). -/
theorem C10_cli_partial (c : Cfg) (arg : String) (v : Int) (hv : strtol arg.toList = some v)
    (hi : -(2 ^ 31) ≤ v ∧ v < 2 ^ 31) :
    step c (.cliPrec32 arg) = step c (.callPrec32 v) ∧
    step c (.cliRange32 arg) = step c (.callRange32 v) ∧
    step c (.cliPrec64 arg) = step c (.callPrec64 v) ∧
    step c (.cliRange64 arg) = step c (.callRange64 v) := by
  have ht : toInt v = v := by unfold toInt; omega
  simp only [step, cliInt, hv, ht, setPrec32, setRange32, setPrec64, setRange64]
  refine ⟨?_, ?_, ?_, ?_⟩ <;> split_ifs <;> rfl

/-- Arguments and the value read. -/
example : strtol "17".toList = some 17 ∧ strtol " -3xyz".toList = some (-3) ∧
    strtol "9223372036854775808".toList = none ∧ strtol "3.5".toList = some 3 := by decide +kernel

example : run init [.cliPreset "binary16", .cliMode "FULL", .callPrec64 40, .callOther 7] =
    .ok ⟨10, 5, 40, 5, -1022, .full, true, false, false, false⟩ := by decide +kernel
example : run init [.callPrec32 24] = .exit := by decide +kernel

end Verif.Vprec.Config
