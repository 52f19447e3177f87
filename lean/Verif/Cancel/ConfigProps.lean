import Verif.Cancel.Config
import Verif.Cancel.Props
import Verif.Vfi.FileProps

/-!
# C65: options of the cancellation backend
-/

namespace Verif.Cancel.Config
open Verif Verif.Fp
open Verif.Vprec.Config (strtol toInt)

/-- A documented option with its value. -/
inductive Doc
  | tolerance (n : Int)
  | warning (text : List Char)
  | seed (v : Int)

/-- "TOLERANCE >= 0". -/
def Doc.Ok : Doc → Prop
  | .tolerance n => 0 ≤ n ∧ n < 2 ^ 31
  | .warning _ => True
  | .seed v => -(2 ^ 63) ≤ v ∧ v < 2 ^ 63

def Doc.req : Doc → Req
  | .tolerance n => .cliTolerance (Vfi.dec n)
  | .warning t => .cliWarning t
  | .seed v => .cliSeed (Vfi.dec v)

def Doc.tolerance? : Doc → Option Int | .tolerance n => some n | _ => none
def Doc.warning? : Doc → Option Unit | .warning _ => some () | _ => none
def Doc.seed? : Doc → Option Int | .seed v => some v | _ => none

/-- The last occurrence of an option. -/
def last {α : Type} (f : Doc → Option α) (ds : List Doc) : Option α := ds.reverse.findSome? f

theorem last_snoc {α : Type} (f : Doc → Option α) (ds : List Doc) (d : Doc) :
    last f (ds ++ [d]) = (f d).or (last f ds) := by
  unfold last
  rw [List.reverse_append, List.reverse_singleton, List.singleton_append, List.findSome?_cons]
  cases f d <;> rfl

theorem run_snoc (qs : List Req) (q : Req) (c : Cfg) :
    run (qs ++ [q]) c = run qs c >>= fun c => step c q := by
  induction qs generalizing c with
  | nil =>
    simp only [List.nil_append, run, Outcome.bind_ok]
    cases step c q <;> rfl
  | cons r qs ih =>
    simp only [List.cons_append, run]
    cases step c r with
    | ok d => simp only [Outcome.bind_ok]; exact ih d
    | exit => rfl
    | ub => rfl

/-- What the options say. -/
def meant (ds : List Doc) : Cfg where
  base := ⟨(last Doc.tolerance? ds).getD 1, (last Doc.warning? ds).isSome⟩
  chooseSeed := (last Doc.seed? ds).isSome
  seed := BitVec.ofInt 64 ((last Doc.seed? ds).getD 0)

theorem strtol_dec' (n : Int) (h : -(2 ^ 63) ≤ n ∧ n < 2 ^ 63) : strtol (Vfi.dec n) = some n := by
  have := Vfi.strtol_dec64 n h [] (by simp)
  rwa [List.append_nil] at this

theorem toInt_self (n : Int) (h : -(2 ^ 31) ≤ n ∧ n < 2 ^ 31) : toInt n = n := by
  unfold toInt; omega

/-- **C65, cancellation.**  Any sequence of documented options is accepted and means the last value
given for each, or the default. -/
theorem C65_cancel_meaning (ds : List Doc) (h : ∀ d ∈ ds, d.Ok) :
    run (ds.map Doc.req) init = .ok (meant ds) := by
  induction ds using List.reverseRecOn with
  | nil => rfl
  | append_singleton ds d ih =>
    rw [List.map_append, List.map_singleton, run_snoc, ih (fun d hd => h d (by simp [hd])), Outcome.bind_ok]
    have hd := h d (by simp)
    cases d with
    | tolerance n =>
      obtain ⟨h1, h2⟩ := hd
      simp only [Doc.req, step]
      rw [strtol_dec' n (by omega)]
      simp only [toInt_self n (by omega), setTolerance]
      rw [if_neg (by omega)]
      simp [meant, last_snoc, Doc.tolerance?, Doc.warning?, Doc.seed?]
    | warning t => simp [Doc.req, step, meant, last_snoc, Doc.tolerance?, Doc.warning?, Doc.seed?]
    | seed v =>
      simp only [Doc.req, step]
      rw [strtol_dec' v hd]
      simp [meant, last_snoc, Doc.tolerance?, Doc.warning?, Doc.seed?]

example : run [.cliTolerance "3".toList, .cliSeed "42".toList, .cliTolerance "0".toList] init =
    .ok ⟨⟨0, false⟩, true, 42⟩ := by decide +kernel

/-- **C65, refusals.**  Negative tolerances stop the process. -/
theorem C65_cancel_refused (c : Cfg) (n : Int) (h1 : -(2 ^ 31) ≤ n) (h2 : n < 0) :
    step c (.cliTolerance (Vfi.dec n)) = .exit := by
  simp only [step]
  rw [strtol_dec' n (by omega)]
  simp only [toInt_self n (by omega), setTolerance, if_pos h2]
  rfl

/-- **C65, invariant.**  On the command line, whatever the texts, the tolerance stays non-negative. -/
theorem C65_cancel_valid (qs : List Req) (hq : ∀ q ∈ qs, ∀ t w s, q ≠ .configure t w s) (c : Cfg)
    (h : run qs init = .ok c) : 0 ≤ c.base.tolerance := by
  have gen : ∀ (qs : List Req) (c0 : Cfg), (∀ q ∈ qs, ∀ t w s, q ≠ .configure t w s) → 0 ≤ c0.base.tolerance →
      run qs c0 = .ok c → 0 ≤ c.base.tolerance := by
    intro qs
    induction qs with
    | nil => intro c0 _ h0 h; injection h with h; subst h; exact h0
    | cons q qs ih =>
      intro c0 hq h0 h
      simp only [run] at h
      cases hs : step c0 q with
      | ub => rw [hs] at h; simp at h
      | exit => rw [hs] at h; simp at h
      | ok c1 =>
        rw [hs, Outcome.bind_ok] at h
        refine ih c1 (fun q hm => hq q (by simp [hm])) ?_ h
        cases q with
        | cliTolerance a =>
          simp only [step] at hs
          split at hs
          · simp at hs
          · unfold setTolerance at hs
            split_ifs at hs with hn
            · simp at hs
            · have hs := Outcome.ok.inj hs
              subst hs
              simp only
              omega
        | cliWarning a => have hs := Outcome.ok.inj hs; subst hs; exact h0
        | cliSeed a =>
          simp only [step] at hs
          split at hs
          · simp at hs
          · have hs := Outcome.ok.inj hs; subst hs; exact h0
        | configure t w s => exact absurd rfl (hq _ (by simp) t w s)
  exact gen qs init hq (by decide) h

/-- **C65, negation: `--warning`.**  The option takes an argument and ignores it: `--warning=false`
enables the warnings. -/
theorem C65_warning_wrong (c : Cfg) :
    step c (.cliWarning "false".toList) = .ok { c with base := { c.base with warning := true } } := rfl

/-- **C65, negation: `configure`.**  The tolerance is not checked: with -1, sums without any cancellation
are perturbed (1 + 1). -/
theorem C65_cancel_configure_wrong (c : Cfg) :
    ∃ c', step c (.configure (-1) false 0) = .ok c' ∧ c'.base.tolerance < 0 ∧
      ∃ (g : Mca.Gen Unit) (hw : HW),
        (exec g b64 hw c'.base () (.add ⟨false, 1023, 0⟩ ⟨false, 1023, 0⟩)).1 ≠ ⟨false, 1024, 0⟩ ∧
        fadd b64 ⟨false, 1023, 0⟩ ⟨false, 1023, 0⟩ = ⟨false, 1024, 0⟩ := by
  refine ⟨_, rfl, by decide, ⟨fun _ => (0, ())⟩, ⟨fun a _ => a, fun a _ => a, fun a _ _ => a⟩, ?_, ?_⟩
  · decide +kernel
  · decide +kernel

end Verif.Cancel.Config
