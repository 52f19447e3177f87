import Verif.Cli.Props
import Verif.Cli.Backends
import Verif.Mca.ConfigProps
import Verif.Bitmask.ConfigProps
import Verif.Cancel.ConfigProps
import Verif.Vprec.ConfigProps
import Verif.Wrapper.InitProps

/-!
# C103: the command lines of the backends

For each backend, what each option name asks for (`mcaAsks` and others: by names, whereas the code goes by keys), and that the backend is configured by
exactly what its command line asks, in order, or ends the process.
-/

namespace Verif.Cli
open Verif Verif.Fp

/-! ## Any backend -/

/-- Requests one after the other. -/
def runAll {C R : Type} (st : C → R → Outcome C) : List R → C → Outcome C
  | [], c => .ok c
  | r :: rs, c => st c r >>= runAll st rs

/-- What a list of events asks for; nothing if one of them is an error. -/
def asksAll {R : Type} (asks : Ev → Option (List R)) : List Ev → Option (List R)
  | [] => some []
  | e :: es => (asks e).bind fun a => (asksAll asks es).map fun b => a ++ b

/-- What a command line asks for. -/
def Asked {R : Type} (posix : Bool) (t : List Entry) (asks : Ev → Option (List R)) (ws : List Word) (qs : List R) : Prop :=
  ∃ os ss, Reads posix t ws os ss ∧ asksAll asks (os ++ ss.map .word) = some qs

/-- An option of the table, with a value if it takes one. -/
def Ev.Wf (t : List Entry) : Ev → Prop
  | .opt e a => e ∈ t ∧ (e.opt.has = .none → a = none) ∧ (e.opt.has = .required → a ≠ none)
  | _ => True

theorem findShort_mem {t : List Entry} {c e} (h : findShort t c = some e) : e ∈ t := List.mem_of_find?_eq_some h

theorem findLong_mem {t : List Entry} {n e} (h : findLong t n = some e) : e ∈ t := by
  unfold findLong at h
  cases hf : t.find? fun e => e.opt.name == n with
  | some e0 =>
    rw [hf] at h
    cases h
    exact List.mem_of_find?_eq_some hf
  | none =>
    rw [hf] at h
    simp only at h
    cases hl : t.filter fun e => n.isPrefixOf e.opt.name with
    | nil => rw [hl] at h; cases h
    | cons e0 es =>
      rw [hl] at h
      simp only at h
      split_ifs at h
      cases h
      exact (List.mem_filter.1 (by rw [hl]; simp)).1

theorem short_wf {t : List Entry} (cs : Word) (ws : List Word) : ∀ ev ∈ (short t cs ws).1, ev.Wf t := by
  induction cs with
  | nil => simp [short]
  | cons c cs ih =>
    unfold short
    cases hf : findShort t c with
    | none => simp [Ev.Wf]
    | some e =>
      have hm := findShort_mem hf
      cases hh : e.opt.has with
      | none =>
        simp only [hh]
        intro ev hev
        rcases List.mem_cons.1 hev with rfl | hev
        · exact ⟨hm, fun _ => rfl, fun h => by rw [hh] at h; cases h⟩
        · exact ih ev hev
      | optional => simp [hh, Ev.Wf, hm]
      | required =>
        simp only [hh]
        split_ifs
        · simp [Ev.Wf, hm, hh]
        · cases ws <;> simp [Ev.Wf, hm, hh]

theorem long_wf {t : List Entry} (w : Word) (ws : List Word) : ∀ ev ∈ (long t w ws).1, ev.Wf t := by
  unfold long
  cases hf : findLong t (w.takeWhile (· != '=')) with
  | none => simp [Ev.Wf]
  | some e =>
    have hm := findLong_mem hf
    cases hh : e.opt.has <;> cases hd : w.dropWhile (· != '=')
    all_goals simp only [hh]
    all_goals first | (simp [Ev.Wf, hm, hh]; done) | (cases ws <;> simp [Ev.Wf, hm, hh])

theorem scan_wf (posix : Bool) (t : List Entry) : ∀ (n : Nat) (ws skipped : List Word), ∀ ev ∈ scan posix t n ws skipped, ev.Wf t
  | 0, _, _ => by simp [scan]
  | n + 1, [], skipped => by
    intro ev hev
    obtain ⟨w, -, rfl⟩ := List.mem_map.1 hev
    trivial
  | n + 1, w :: ws, skipped => by
    intro ev hev
    by_cases h1 : w = ['-', '-']
    · rw [scan, if_pos h1] at hev
      obtain ⟨w, -, rfl⟩ := List.mem_map.1 hev
      trivial
    · cases h2 : isPlain w with
      | true =>
        rw [scan, if_neg h1, if_pos h2] at hev
        split_ifs at hev
        · obtain ⟨w, -, rfl⟩ := List.mem_map.1 hev
          trivial
        · exact scan_wf posix t n ws (skipped ++ [w]) ev hev
      | false =>
        rw [scan_cons posix n w ws skipped h1 h2] at hev
        have hr : ∀ ev ∈ (readOne t w ws).1, ev.Wf t := by
          unfold readOne
          split_ifs
          · exact long_wf _ _
          · exact short_wf _ _
        cases ho : (readOne t w ws).2 with
        | none => rw [ho] at hev; exact hr ev hev
        | some ws' =>
          rw [ho] at hev
          rcases List.mem_append.1 hev with hev | hev
          · exact hr ev hev
          · exact scan_wf posix t n ws' skipped ev hev

theorem runAll_append {C R : Type} (st : C → R → Outcome C) (a b : List R) (c : C) : runAll st (a ++ b) c = runAll st a c >>= runAll st b := by
  induction a generalizing c with
  | nil => rfl
  | cons r a ih =>
    simp only [List.cons_append, runAll]
    cases st c r with
    | ok d => simp only [Outcome.bind_ok]; exact ih d
    | exit => rfl
    | ub => rfl

section
variable {C R : Type} (gs : List (Group C)) (st : C → R → Outcome C) (asks : Ev → Option (List R))

/-- The function of the backend does what the event asks. -/
def Faithful (t : List Entry) : Prop :=
  ∀ ev, ev.Wf t → ∀ c, handle gs c ev = match asks ev with
    | none => .exit
    | some rs => runAll st rs c

theorem handleAll_asks {t : List Entry} (hf : Faithful gs st asks t) : ∀ (evs : List Ev) (c : C) (qs : List R), (∀ ev ∈ evs, ev.Wf t) →
    asksAll asks evs = some qs → handleAll gs evs c = runAll st qs c
  | [], c, qs, _, h => by cases h; rfl
  | e :: es, c, qs, hw, h => by
    simp only [asksAll] at h
    cases h1 : asks e with
    | none => rw [h1] at h; cases h
    | some a =>
      rw [h1, Option.bind_some] at h
      cases h2 : asksAll asks es with
      | none => rw [h2] at h; cases h
      | some b =>
        rw [h2] at h
        cases h
        rw [runAll_append]
        unfold handleAll
        rw [hf e (hw e (by simp)) c, h1]
        simp only
        cases runAll st a c with
        | ok d => simp only [Outcome.bind_ok]; exact handleAll_asks hf es d b (fun ev hev => hw ev (by simp [hev])) h2
        | exit => rfl
        | ub => rfl

theorem runAll_ne_ub (rs : List R) (h : ∀ r ∈ rs, ∀ c, st c r ≠ .ub) (c : C) : runAll st rs c ≠ .ub := by
  induction rs generalizing c with
  | nil => simp [runAll]
  | cons r rs ih =>
    unfold runAll
    cases h1 : st c r with
    | ok d => simp only [Outcome.bind_ok]; exact ih (fun r hr => h r (by simp [hr])) d
    | exit => simp
    | ub => exact absurd h1 (h r (by simp) c)

theorem handleAll_exit {t : List Entry} (hf : Faithful gs st asks t) (hu : ∀ ev rs, asks ev = some rs → ∀ r ∈ rs, ∀ c, st c r ≠ .ub) :
    ∀ (evs : List Ev) (c : C), (∀ ev ∈ evs, ev.Wf t) → asksAll asks evs = none → handleAll gs evs c = .exit
  | [], c, _, h => by cases h
  | e :: es, c, hw, h => by
    unfold handleAll
    rw [hf e (hw e (by simp)) c]
    cases h1 : asks e with
    | none => rfl
    | some a =>
      simp only
      have h2 : asksAll asks es = none := by
        simp only [asksAll, h1, Option.bind_some] at h
        simpa using h
      cases h3 : runAll st a c with
      | ok d => simp only [Outcome.bind_ok]; exact handleAll_exit hf hu es d (fun ev hev => hw ev (by simp [hev])) h2
      | exit => rfl
      | ub => exact absurd h3 (runAll_ne_ub st a (hu e a h1) c)

/-- A backend is configured by what its command line asks, in order, or ends the process. -/
theorem argp_asked (posix : Bool) (hg : Good (table (gs.map Group.opts))) (hf : Faithful gs st asks (table (gs.map Group.opts)))
    (hb : asks .bad = none) (hu : ∀ ev rs, asks ev = some rs → ∀ r ∈ rs, ∀ c, st c r ≠ .ub) (ws : List Word) (c : C) :
    (∀ qs, Asked posix (table (gs.map Group.opts)) asks ws qs → argpParse posix gs ws c = runAll st qs c) ∧
    ((¬ ∃ qs, Asked posix (table (gs.map Group.opts)) asks ws qs) → argpParse posix gs ws c = .exit) := by
  have hw := scan_wf posix (table (gs.map Group.opts)) (ws.length + 1) ws []
  obtain ⟨h1, h2⟩ := C103_scan posix hg ws
  refine ⟨?_, fun h => ?_⟩
  · rintro qs ⟨os, ss, hr, hs⟩
    unfold argpParse
    rw [← h1 os ss hr] at hs
    exact handleAll_asks gs st asks hf _ c qs hw hs
  · refine handleAll_exit gs st asks hf hu _ c hw ?_
    by_cases hr : ∃ os ss, Reads posix (table (gs.map Group.opts)) ws os ss
    · obtain ⟨os, ss, hr⟩ := hr
      rw [h1 os ss hr]
      cases hs : asksAll asks (os ++ ss.map .word) with
      | none => rfl
      | some qs => exact absurd ⟨qs, os, ss, hr, hs⟩ h
    · have hbad := h2.2 hr
      generalize scan posix (table (gs.map Group.opts)) (ws.length + 1) ws [] = evs at hbad
      induction evs with
      | nil => simp at hbad
      | cons e es ih =>
        rcases List.mem_cons.1 hbad with rfl | hbad
        · simp [asksAll, hb]
        · simp only [asksAll, ih hbad]
          cases asks e <;> rfl

end

/-! ## What the options ask for, by their names -/

/-- The options every parser has: `--help` and `--usage` end the process, the others ask for nothing. -/
def commonAsks {R : Type} (n : String) : Option (List R) :=
  match n with
  | "program-name" => some []
  | "HANG" => some []
  | _ => none

/-- MCA. -/
def mcaAsks (be : Mca.Config.Backend) : Ev → Option (List Mca.Config.Req)
  | .bad => none
  | .word w => some [.cliPrec32 w]
  | .opt e a =>
    match String.ofList e.opt.name, a with
    | "precision-binary32", some v => some [.cliPrec32 v]
    | "precision-binary64", some v => some [.cliPrec64 v]
    | "mode", some v => some [.cliMode v]
    | "error-mode", some v => if be = .quad then some [.cliErrMode v] else none
    | "max-abs-error-exponent", some v => if be = .quad then some [.cliErrExp v] else none
    | "seed", some v => some [.cliSeed v]
    | "daz", _ => some [.cliDaz]
    | "ftz", _ => some [.cliFtz]
    | "sparsity", some v => some [.cliSparsity v]
    | n, _ => commonAsks n

/-- Bitmask. -/
def bitmaskAsks : Ev → Option (List Bitmask.Config.Req)
  | .bad => none
  | .word w => some [.cliPrec32 w]
  | .opt e a =>
    match String.ofList e.opt.name, a with
    | "precision-binary32", some v => some [.cliPrec32 v]
    | "precision-binary64", some v => some [.cliPrec64 v]
    | "mode", some v => some [.cliMode v]
    | "operator", some v => some [.cliOperator v]
    | "seed", some v => some [.cliSeed v]
    | "daz", _ => some [.cliDaz]
    | "ftz", _ => some [.cliFtz]
    | n, _ => commonAsks n

/-- Cancellation. -/
def cancelAsks : Ev → Option (List Cancel.Config.Req)
  | .bad => none
  | .word _ => none
  | .opt e a =>
    match String.ofList e.opt.name, a with
    | "tolerance", some v => some [.cliTolerance v]
    | "warning", some v => some [.cliWarning v]
    | "seed", some v => some [.cliSeed v]
    | n, _ => commonAsks n

/-- IEEE. -/
def ieeeAsks : Ev → Option (List IeeeReq)
  | .bad => none
  | .word _ => none
  | .opt e _ =>
    match String.ofList e.opt.name with
    | "debug" => some [.debug]
    | "debug-binary" => some [.debugBinary]
    | "no-backend-name" => some [.noBackendName]
    | "print-new-line" => some [.printNewLine]
    | "print-subnormal-normalized" => some [.subnormalNormalized]
    | "count-op" => some [.countOp]
    | n => commonAsks n

/-- Requests to VPREC and to its function instrumentation. -/
inductive VReq
  | base (r : Vprec.Config.Req)
  | vfi (r : VfiReq)

def vstep (c : VprecCfg) : VReq → Outcome VprecCfg
  | .base r => Vprec.Config.step c.base r >>= fun b => .ok { c with base := b }
  | .vfi r => vfiStep c.vfi r >>= fun v => .ok { c with vfi := v }

/-- VPREC. -/
def vprecAsks : Ev → Option (List VReq)
  | .bad => none
  | .word w => some [.base (.cliPrec32 (String.ofList w))]
  | .opt e a =>
    match String.ofList e.opt.name, a with
    | "precision-binary32", some v => some [.base (.cliPrec32 (String.ofList v))]
    | "precision-binary64", some v => some [.base (.cliPrec64 (String.ofList v))]
    | "range-binary32", some v => some [.base (.cliRange32 (String.ofList v))]
    | "range-binary64", some v => some [.base (.cliRange64 (String.ofList v))]
    | "preset", some v => some [.base (.cliPreset (String.ofList v))]
    | "mode", some v => some [.base (.cliMode (String.ofList v))]
    | "error-mode", some v => some [.base (.cliErrMode (String.ofList v))]
    | "max-abs-error-exponent", some v => some [.base (.cliErrExp (String.ofList v))]
    | "daz", _ => some [.base .cliDaz]
    | "ftz", _ => some [.base .cliFtz]
    | "prec-input-file", some v => some [.vfi (.input v)]
    | "prec-output-file", some v => some [.vfi (.output v)]
    | "prec-log-file", some v => some [.vfi (.log v)]
    | "instrument", some v => some [.vfi (.instrument v)]
    | n, _ => commonAsks n

/-! ## The tables -/

theorem good_of (t : List Entry) (h1 : ∀ e ∈ t, ∀ e' ∈ t, e.opt.name = e'.opt.name → e = e')
    (h2 : ∀ e ∈ t, ∀ e' ∈ t, e.group = e'.group → e.opt.key = e'.opt.key → e = e')
    (h3 : ∀ e ∈ t, ∀ e' ∈ t, isShort e.opt.key = true → e.opt.key = e'.opt.key → e = e')
    (h4 : ∀ e ∈ t, e.opt.name ≠ []) (h5 : ∀ e ∈ t, '=' ∉ e.opt.name) (h6 : ∀ e ∈ t, e.opt.key ≠ 45)
    (h7 : ∀ e ∈ t, e.opt.has = .optional → isShort e.opt.key = false) (h8 : ∃ e ∈ t, ∃ e' ∈ t, e ≠ e') : Good t :=
  ⟨h1, h2, h3, h4, h5, h6, h7, h8⟩

macro "good" : tactic => `(tactic| (refine good_of _ ?_ ?_ ?_ ?_ ?_ ?_ ?_ ?_ <;> decide +kernel))

theorem mca_good (be : Mca.Config.Backend) : Good (table [mcaOpts be]) := by cases be <;> good
theorem bitmask_good : Good (table [bitmaskOpts]) := by good
theorem cancel_good : Good (table [cancelOpts]) := by good
theorem ieee_good : Good (table [ieeeOpts]) := by good
theorem vprec_good : Good (table [vprecOpts, vfiOpts]) := by good

/-- The options of a table one by one. -/
theorem faithful_of {C R : Type} {gs : List (Group C)} {st : C → R → Outcome C} {asks : Ev → Option (List R)} {t : List Entry}
    (hb : asks .bad = none)
    (hw : ∀ w c, word w c gs = match asks (.word w) with | none => .exit | some rs => runAll st rs c)
    (ho : ∀ e ∈ t, (∀ c, e.opt.has ≠ .required → handle gs c (.opt e none) = match asks (.opt e none) with | none => .exit | some rs => runAll st rs c) ∧
      ∀ v c, e.opt.has ≠ .none → handle gs c (.opt e (some v)) = match asks (.opt e (some v)) with | none => .exit | some rs => runAll st rs c) :
    Faithful gs st asks t := by
  intro ev hev c
  cases ev with
  | bad => rw [hb]; rfl
  | word w => exact hw w c
  | opt e a =>
    obtain ⟨hm, h1, h2⟩ := hev
    cases a with
    | none => exact (ho e hm).1 c fun h => h2 h rfl
    | some v => exact (ho e hm).2 v c fun h => absurd (h1 h) (by simp)

theorem run_one {C R : Type} (st : C → R → Outcome C) (r : R) (c : C) : runAll st [r] c = st c r := by
  unfold runAll
  cases st c r <;> rfl

macro "option_by_option" : tactic => `(tactic| (
  repeat' (refine List.forall_mem_cons.2 ⟨⟨fun c hr => ?_, fun v c hn => ?_⟩, ?_⟩)
  all_goals first
    | exact fun e he => absurd he (List.not_mem_nil)
    | exact absurd rfl hr
    | exact absurd rfl hn
    | rfl
    | exact (run_one _ _ _).symm))

theorem mca_faithful (be : Mca.Config.Backend) (sd : Word → Option Bits) :
    Faithful (mcaGroups be sd) (Mca.Config.step be sd) (mcaAsks be) (table [mcaOpts be]) := by
  cases be
  · refine faithful_of rfl (fun w c => (run_one _ _ _).symm) ?_
    option_by_option
  · refine faithful_of rfl (fun w c => (run_one _ _ _).symm) ?_
    option_by_option

theorem bitmask_faithful : Faithful bitmaskGroups Bitmask.Config.step bitmaskAsks (table [bitmaskOpts]) := by
  refine faithful_of rfl (fun w c => (run_one _ _ _).symm) ?_
  option_by_option

theorem cancel_faithful : Faithful cancelGroups Cancel.Config.step cancelAsks (table [cancelOpts]) := by
  refine faithful_of rfl (fun w c => rfl) ?_
  option_by_option

theorem ieee_faithful (reg : Bool) : Faithful (ieeeGroups reg) (ieeeStep reg) ieeeAsks (table [ieeeOpts]) := by
  refine faithful_of rfl (fun w c => rfl) ?_
  option_by_option

theorem vprec_faithful : Faithful vprecGroups vstep vprecAsks (table [vprecOpts, vfiOpts]) := by
  refine faithful_of rfl (fun w c => (run_one _ _ _).symm) ?_
  option_by_option

/-! ## C103 -/

theorem bind_ne_ub {α β : Type} {x : Outcome α} {f : α → Outcome β} (hx : x ≠ .ub) (hf : ∀ a, f a ≠ .ub) : (x >>= f) ≠ .ub := by
  cases x with
  | ok a => exact hf a
  | exit => simp
  | ub => exact absurd rfl hx

theorem commonAsks_nil {R : Type} {n : String} {rs : List R} (h : commonAsks n = some rs) : rs = [] := by
  unfold commonAsks at h
  split at h
  · exact (Option.some.inj h).symm
  · exact (Option.some.inj h).symm
  · exact absurd h (by simp)

theorem mca_cli {be : Mca.Config.Backend} {ev : Ev} {rs : List Mca.Config.Req} (h : mcaAsks be ev = some rs) : ∀ r ∈ rs, r.isCli = true := by
  cases ev with
  | bad => cases h
  | word w => cases h; simp [Mca.Config.Req.isCli]
  | opt e a =>
    simp only [mcaAsks] at h
    split at h
    all_goals first
      | (rw [← Option.some.inj h]; simp [Mca.Config.Req.isCli])
      | (split_ifs at h; rw [← Option.some.inj h]; simp [Mca.Config.Req.isCli])
      | exact absurd h (by simp)
      | (rw [commonAsks_nil h]; simp)

theorem mca_ne_ub (be : Mca.Config.Backend) (sd : Word → Option Bits) (r : Mca.Config.Req) (h : r.isCli = true) (c : Mca.Config.Cfg) :
    Mca.Config.step be sd c r ≠ .ub := by
  cases r <;> cases be <;>
    simp only [Mca.Config.step, Mca.Config.cliPrec32, Mca.Config.cliPrec64, Mca.Config.cliSparsity, Mca.Config.setPrec32, Mca.Config.setPrec64,
      Mca.Config.setMode, Mca.Config.setErrMode, Mca.Config.setAbsErrExp, Mca.Config.setSparsity, Mca.Config.Req.isCli] at h ⊢ <;>
    first | (cases h; done) | (repeat' split) <;> simp

theorem runAll_eq_run (be : Mca.Config.Backend) (sd : Word → Option Bits) (qs : List Mca.Config.Req) (c : Mca.Config.Cfg) :
    runAll (Mca.Config.step be sd) qs c = Mca.Config.run be sd qs c := by
  induction qs generalizing c with
  | nil => rfl
  | cons q qs ih =>
    simp only [runAll, Mca.Config.run]
    cases Mca.Config.step be sd c q with
    | ok d => simp only [Outcome.bind_ok]; exact ih d
    | exit => rfl
    | ub => rfl

/-- **C103, MCA.**  A command line that can be read configures the backend with what its options ask, in order, and then each word that is no option as
`--precision-binary32` would; any other ends the process. -/
theorem C103_mca (be : Mca.Config.Backend) (sd : Word → Option Bits) (posix : Bool) (ws : List Word) (c : Mca.Config.Cfg) :
    (∀ qs, Asked posix (table [mcaOpts be]) (mcaAsks be) ws qs → argpParse posix (mcaGroups be sd) ws c = Mca.Config.run be sd qs c) ∧
    ((¬ ∃ qs, Asked posix (table [mcaOpts be]) (mcaAsks be) ws qs) → argpParse posix (mcaGroups be sd) ws c = .exit) := by
  obtain ⟨h1, h2⟩ := argp_asked (mcaGroups be sd) (Mca.Config.step be sd) (mcaAsks be) posix (mca_good be) (mca_faithful be sd) rfl
    (fun ev rs h r hr c => mca_ne_ub be sd r (mca_cli h r hr) c) ws c
  exact ⟨fun qs h => (h1 qs h).trans (runAll_eq_run be sd qs c), h2⟩

theorem bitmask_cli {ev : Ev} {rs : List Bitmask.Config.Req} (h : bitmaskAsks ev = some rs) : ∀ r ∈ rs, ∀ k, r ≠ .configure k := by
  cases ev with
  | bad => cases h
  | word w => cases h; simp
  | opt e a =>
    simp only [bitmaskAsks] at h
    split at h
    all_goals first
      | (rw [← Option.some.inj h]; simp)
      | (rw [commonAsks_nil h]; simp)

theorem bitmask_opt_ne_ub (o : Bitmask.Opt) (c : Bitmask.Config.Cfg) : Bitmask.Config.opt o c ≠ .ub := by
  have h := Bitmask.C25_cli_defined [o] c.base
  refine bind_ne_ub ?_ (by simp)
  intro h'
  simp [Bitmask.cli, h', Outcome.Defined] at h

theorem bitmask_ne_ub (r : Bitmask.Config.Req) (h : ∀ k, r ≠ .configure k) (c : Bitmask.Config.Cfg) : Bitmask.Config.step c r ≠ .ub := by
  cases r with
  | cliPrec32 a => exact bitmask_opt_ne_ub _ c
  | cliPrec64 a => exact bitmask_opt_ne_ub _ c
  | cliMode a => exact bitmask_opt_ne_ub _ c
  | cliDaz => exact bitmask_opt_ne_ub _ c
  | cliFtz => exact bitmask_opt_ne_ub _ c
  | cliOperator a =>
    simp only [Bitmask.Config.step, Bitmask.Config.setOperator]
    repeat' split
    all_goals simp
  | cliSeed a =>
    simp only [Bitmask.Config.step]
    split <;> simp
  | configure k => exact absurd rfl (h k)

/-- **C103, bitmask.** -/
theorem C103_bitmask (posix : Bool) (ws : List Word) (c : Bitmask.Config.Cfg) :
    (∀ qs, Asked posix (table [bitmaskOpts]) bitmaskAsks ws qs → argpParse posix bitmaskGroups ws c = Bitmask.Config.run qs c) ∧
    ((¬ ∃ qs, Asked posix (table [bitmaskOpts]) bitmaskAsks ws qs) → argpParse posix bitmaskGroups ws c = .exit) := by
  obtain ⟨h1, h2⟩ := argp_asked bitmaskGroups Bitmask.Config.step bitmaskAsks posix bitmask_good bitmask_faithful rfl
    (fun ev rs h r hr c => bitmask_ne_ub r (bitmask_cli h r hr) c) ws c
  refine ⟨fun qs h => (h1 qs h).trans ?_, h2⟩
  have : ∀ qs c, runAll Bitmask.Config.step qs c = Bitmask.Config.run qs c := by
    intro qs
    induction qs with
    | nil => intro c; rfl
    | cons q qs ih =>
      intro c
      simp only [runAll, Bitmask.Config.run]
      cases Bitmask.Config.step c q with
      | ok d => simp only [Outcome.bind_ok]; exact ih d
      | exit => rfl
      | ub => rfl
  exact this qs c

theorem cancel_cli {ev : Ev} {rs : List Cancel.Config.Req} (h : cancelAsks ev = some rs) : ∀ r ∈ rs, ∀ t w s, r ≠ .configure t w s := by
  cases ev with
  | bad => cases h
  | word w => cases h
  | opt e a =>
    simp only [cancelAsks] at h
    split at h
    all_goals first
      | (rw [← Option.some.inj h]; simp)
      | (rw [commonAsks_nil h]; simp)

theorem cancel_ne_ub (r : Cancel.Config.Req) (h : ∀ t w s, r ≠ .configure t w s) (c : Cancel.Config.Cfg) : Cancel.Config.step c r ≠ .ub := by
  cases r with
  | cliTolerance a =>
    simp only [Cancel.Config.step]
    split
    · simp
    · refine bind_ne_ub ?_ (by simp)
      unfold Cancel.setTolerance
      split <;> simp
  | cliWarning a => simp [Cancel.Config.step]
  | cliSeed a =>
    simp only [Cancel.Config.step]
    split <;> simp
  | configure t w s => exact absurd rfl (h t w s)

/-- **C103, cancellation.** -/
theorem C103_cancel (posix : Bool) (ws : List Word) (c : Cancel.Config.Cfg) :
    (∀ qs, Asked posix (table [cancelOpts]) cancelAsks ws qs → argpParse posix cancelGroups ws c = Cancel.Config.run qs c) ∧
    ((¬ ∃ qs, Asked posix (table [cancelOpts]) cancelAsks ws qs) → argpParse posix cancelGroups ws c = .exit) := by
  obtain ⟨h1, h2⟩ := argp_asked cancelGroups Cancel.Config.step cancelAsks posix cancel_good cancel_faithful rfl
    (fun ev rs h r hr c => cancel_ne_ub r (cancel_cli h r hr) c) ws c
  refine ⟨fun qs h => (h1 qs h).trans ?_, h2⟩
  have : ∀ qs c, runAll Cancel.Config.step qs c = Cancel.Config.run qs c := by
    intro qs
    induction qs with
    | nil => intro c; rfl
    | cons q qs ih =>
      intro c
      simp only [runAll, Cancel.Config.run]
      cases Cancel.Config.step c q with
      | ok d => simp only [Outcome.bind_ok]; exact ih d
      | exit => rfl
      | ub => rfl
  exact this qs c

/-- **C103, IEEE.**  The flags that are set are those that are asked for. -/
theorem C103_ieee (posix : Bool) (ws : List Word) (c : IeeeCfg) :
    (∀ qs, Asked posix (table [ieeeOpts]) ieeeAsks ws qs → argpParse posix (ieeeGroups true) ws c =
      .ok ⟨⟨c.flags.debug || qs.contains .debug, c.flags.debugBinary || qs.contains .debugBinary, c.flags.noBackendName || qs.contains .noBackendName,
        c.flags.printNewLine || qs.contains .printNewLine, c.flags.subnormalNormalized || qs.contains .subnormalNormalized⟩,
        c.countOp || qs.contains .countOp⟩) ∧
    ((¬ ∃ qs, Asked posix (table [ieeeOpts]) ieeeAsks ws qs) → argpParse posix (ieeeGroups true) ws c = .exit) := by
  obtain ⟨h1, h2⟩ := argp_asked (ieeeGroups true) (ieeeStep true) ieeeAsks posix ieee_good (ieee_faithful true) rfl
    (fun ev rs h r hr c => by cases r <;> simp [ieeeStep]) ws c
  refine ⟨fun qs h => (h1 qs h).trans ?_, h2⟩
  clear h1 h2 h
  induction qs generalizing c with
  | nil => simp [runAll]
  | cons q qs ih =>
    cases q <;> simp only [runAll, ieeeStep, if_true, Outcome.bind_ok] <;> rw [ih] <;> simp [Bool.or_comm]

/-- The requests to VPREC proper, and those to function instrumentation. -/
def bases : List VReq → List Vprec.Config.Req
  | [] => []
  | .base r :: qs => r :: bases qs
  | .vfi _ :: qs => bases qs

def vfis : List VReq → List VfiReq
  | [] => []
  | .base _ :: qs => vfis qs
  | .vfi r :: qs => r :: vfis qs

theorem vfi_ne_ub (r : VfiReq) (c : VfiCfg) : vfiStep c r ≠ .ub := by
  cases r <;> simp only [vfiStep] <;> (try split) <;> simp

theorem setters_ne_ub (v : Int) (m : Nat) (c : Vprec.Config.Cfg) :
    Vprec.Config.setPrec32 v c ≠ .ub ∧ Vprec.Config.setPrec64 v c ≠ .ub ∧ Vprec.Config.setRange32 v c ≠ .ub ∧ Vprec.Config.setRange64 v c ≠ .ub ∧
    Vprec.Config.setMode m c ≠ .ub ∧ Vprec.Config.setErrMode m c ≠ .ub ∧ Vprec.Config.setAbsErrExp v c ≠ .ub := by
  refine ⟨?_, ?_, ?_, ?_, ?_, ?_, ?_⟩ <;>
    simp only [Vprec.Config.setPrec32, Vprec.Config.setPrec64, Vprec.Config.setRange32, Vprec.Config.setRange64, Vprec.Config.setMode,
      Vprec.Config.setErrMode, Vprec.Config.setAbsErrExp] <;> (repeat' split) <;> simp

theorem vprec_ne_ub (r : Vprec.Config.Req) (c : Vprec.Config.Cfg) : Vprec.Config.step c r ≠ .ub := by
  have S := setters_ne_ub
  have hi : ∀ lo hi f a c, (∀ v c, f v c ≠ Outcome.ub) → Vprec.Config.cliInt lo hi f a c ≠ .ub := by
    intro lo hi f a c hf
    simp only [Vprec.Config.cliInt]
    split
    · simp
    · split_ifs
      · simp
      · simp
      · exact hf _ _
  have ha : ∀ p r c, Vprec.Config.setAll p r c ≠ .ub := fun p r c =>
    bind_ne_ub (S p 0 c).1 fun c => bind_ne_ub (S p 0 c).2.1 fun c => bind_ne_ub (S r 0 c).2.2.1 fun c => (S r 0 c).2.2.2.1
  cases r with
  | cliPrec32 a => exact hi _ _ _ _ _ fun v c => (S v 0 c).1
  | cliPrec64 a => exact hi _ _ _ _ _ fun v c => (S v 0 c).2.1
  | cliRange32 a => exact hi _ _ _ _ _ fun v c => (S v 0 c).2.2.1
  | cliRange64 a => exact hi _ _ _ _ _ fun v c => (S v 0 c).2.2.2.1
  | cliMode a => exact (S 0 _ c).2.2.2.2.1
  | cliErrMode a => exact (S 0 _ c).2.2.2.2.2.1
  | cliErrExp a =>
    simp only [Vprec.Config.step]
    split
    · simp
    · exact (S _ 0 c).2.2.2.2.2.2
  | cliDaz => simp [Vprec.Config.step]
  | cliFtz => simp [Vprec.Config.step]
  | cliPreset a =>
    simp only [Vprec.Config.step]
    split
    · simp
    · split
      · simp
      · exact ha _ _ _
  | configure k =>
    refine bind_ne_ub ?_ fun v => bind_ne_ub (S _ 0 _).1 fun c => bind_ne_ub (S _ 0 c).2.1 fun c => bind_ne_ub (S _ 0 c).2.2.1 fun c =>
      bind_ne_ub (S _ 0 c).2.2.2.1 fun c => bind_ne_ub (S 0 _ c).2.2.2.2.1 fun c => bind_ne_ub (S 0 _ c).2.2.2.2.2.1 fun c => bind_ne_ub ?_ fun c => by simp
    · repeat' split
      all_goals simp
    · split
      · simp
      · exact (S _ 0 c).2.2.2.2.2.2
  | callPrec32 v => exact (S v 0 c).1
  | callPrec64 v => exact (S v 0 c).2.1
  | callRange32 v => exact (S v 0 c).2.2.1
  | callRange64 v => exact (S v 0 c).2.2.2.1
  | callOther i => simp [Vprec.Config.step]

/-- The two parts of the context do not interfere. -/
theorem vprec_split (qs : List VReq) (c : VprecCfg) : runAll vstep qs c =
    (Vprec.Config.run c.base (bases qs) >>= fun b => runAll vfiStep (vfis qs) c.vfi >>= fun v => .ok ⟨b, v⟩) := by
  have nv : ∀ rs c, runAll vfiStep rs c ≠ .ub := fun rs c => runAll_ne_ub vfiStep rs (fun r _ c => vfi_ne_ub r c) c
  have nb : ∀ rs c, Vprec.Config.run c rs ≠ .ub := by
    intro rs
    induction rs with
    | nil => intro c; simp [Vprec.Config.run]
    | cons r rs ih => intro c; exact bind_ne_ub (vprec_ne_ub r c) fun c => ih c
  induction qs generalizing c with
  | nil => rfl
  | cons q qs ih =>
    cases q with
    | base r =>
      simp only [runAll, vstep, bases, vfis, Vprec.Config.run]
      cases h : Vprec.Config.step c.base r with
      | ok b => simp only [Outcome.bind_ok]; rw [ih]
      | exit => rfl
      | ub => exact absurd h (vprec_ne_ub r _)
    | vfi r =>
      simp only [runAll, vstep, bases, vfis]
      cases h : vfiStep c.vfi r with
      | ok v => simp only [Outcome.bind_ok]; rw [ih]
      | exit =>
        simp only [Outcome.bind_exit]
        cases h' : Vprec.Config.run c.base (bases qs) with
        | ok b => rfl
        | exit => rfl
        | ub => exact absurd h' (nb _ _)
      | ub => exact absurd h (vfi_ne_ub r _)

/-- **C103, VPREC.**  The options of VPREC configure the formats, those of function instrumentation the files and the mode. -/
theorem C103_vprec (posix : Bool) (ws : List Word) (c : VprecCfg) :
    (∀ qs, Asked posix (table [vprecOpts, vfiOpts]) vprecAsks ws qs → argpParse posix vprecGroups ws c =
      (Vprec.Config.run c.base (bases qs) >>= fun b => runAll vfiStep (vfis qs) c.vfi >>= fun v => .ok ⟨b, v⟩)) ∧
    ((¬ ∃ qs, Asked posix (table [vprecOpts, vfiOpts]) vprecAsks ws qs) → argpParse posix vprecGroups ws c = .exit) := by
  obtain ⟨h1, h2⟩ := argp_asked vprecGroups vstep vprecAsks posix vprec_good vprec_faithful rfl
    (fun ev rs h r hr c => by
      cases r with
      | base r => exact bind_ne_ub (vprec_ne_ub r _) (by simp)
      | vfi r => exact bind_ne_ub (vfi_ne_ub r _) (by simp)) ws c
  exact ⟨fun qs h => (h1 qs h).trans (vprec_split qs c), h2⟩

/-- The last value of an option. -/
def lastOf {R α : Type} (f : R → Option α) (qs : List R) : Option α := qs.reverse.findSome? f

def VfiReq.input? : VfiReq → Option Word | .input w => some w | _ => none
def VfiReq.output? : VfiReq → Option Word | .output w => some w | _ => none
def VfiReq.log? : VfiReq → Option Word | .log w => some w | _ => none
def VfiReq.inst? : VfiReq → Option Nat | .instrument w => instName w | _ => none

/-- **C103, function instrumentation.**  The files and the mode are the last that are given; a mode with no such name ends the process. -/
theorem C103_vfi (qs : List VfiReq) :
    ((∀ w, .instrument w ∈ qs → (instName w).isSome) → runAll vfiStep qs vprecInit.vfi =
      .ok ⟨lastOf VfiReq.input? qs, lastOf VfiReq.output? qs, lastOf VfiReq.log? qs, (lastOf VfiReq.inst? qs).getD 3⟩) ∧
    ((∃ w, .instrument w ∈ qs ∧ instName w = none) → runAll vfiStep qs vprecInit.vfi = .exit) := by
  have snoc : ∀ {α : Type} (f : VfiReq → Option α) qs q, lastOf f (qs ++ [q]) = (f q).or (lastOf f qs) := by
    intro α f qs q
    unfold lastOf
    rw [List.reverse_append, List.reverse_singleton, List.singleton_append, List.findSome?_cons]
    cases f q <;> rfl
  induction qs using List.reverseRecOn with
  | nil => exact ⟨fun _ => rfl, fun ⟨w, h, _⟩ => by simp at h⟩
  | append_singleton qs q ih =>
    rw [runAll_append]
    by_cases hbad : ∃ w, .instrument w ∈ qs ∧ instName w = none
    · rw [ih.2 hbad]
      refine ⟨fun h => ?_, fun _ => rfl⟩
      obtain ⟨w, hw, hn⟩ := hbad
      have := h w (by simp [hw])
      rw [hn] at this; cases this
    · have hok : ∀ w, .instrument w ∈ qs → (instName w).isSome := by
        intro w hw
        cases hn : instName w with
        | none => exact absurd ⟨w, hw, hn⟩ hbad
        | some i => rfl
      rw [ih.1 hok, Outcome.bind_ok, run_one]
      simp only [snoc]
      cases q with
      | input w => exact ⟨fun _ => rfl, fun ⟨w', h, hn⟩ => absurd ⟨w', by simpa using h, hn⟩ hbad⟩
      | output w => exact ⟨fun _ => rfl, fun ⟨w', h, hn⟩ => absurd ⟨w', by simpa using h, hn⟩ hbad⟩
      | log w => exact ⟨fun _ => rfl, fun ⟨w', h, hn⟩ => absurd ⟨w', by simpa using h, hn⟩ hbad⟩
      | instrument w =>
        refine ⟨fun h => ?_, fun ⟨w', h, hn⟩ => ?_⟩
        · have := h w (by simp)
          simp only [vfiStep, VfiReq.input?, VfiReq.output?, VfiReq.log?, VfiReq.inst?]
          cases hn : instName w with
          | none => rw [hn] at this; cases this
          | some i => rfl
        · rcases List.mem_append.1 h with h | h
          · exact absurd ⟨w', h, hn⟩ hbad
          · simp only [List.mem_singleton, VfiReq.instrument.injEq] at h
            subst h
            simp only [vfiStep, hn]

/-- **C103, names of modes.**  The modes of function instrumentation are those of the four names, in any case, and no others: a word gives a mode exactly if
it is one of the names in small letters. -/
theorem C103_vfi_modes (w : Word) (c : VfiCfg) :
    (∀ i, i < 4 → w.map Char.toLower = (["arguments", "operations", "all", "none"][i]?.getD "").toList → vfiStep c (.instrument w) = .ok { c with inst := i }) ∧
      ((∀ n ∈ ["arguments", "operations", "all", "none"], w.map Char.toLower ≠ n.toList) → vfiStep c (.instrument w) = .exit) := by
  refine ⟨fun i hi h => ?_, fun h => ?_⟩
  · have key : instName w = some i := by
      simp only [instName]
      rw [h]
      rcases i with _ | _ | _ | _ | i
      · decide
      · decide
      · decide
      · decide
      · omega
    simp only [vfiStep, key]
  · have key : instName w = none := by
      simp only [instName]
      rw [if_neg (h "arguments" (by simp)), if_neg (h "operations" (by simp)), if_neg (h "all" (by simp)), if_neg (h "none" (by simp))]
    simp only [vfiStep, key]

/-- The help of the option speaks of `full`, which is refused. -/
example : vfiStep vprecInit.vfi (.instrument "Operations".toList) = .ok { vprecInit.vfi with inst := 1 } ∧ vfiStep vprecInit.vfi (.instrument "full".toList) = .exit := by
  decide +kernel

end Verif.Cli
