import Verif.Cli.MeaningProps
import Verif.Cli.Tables
import Verif.Pass.DotProps
import Verif.Pass.IeeeProgProps

/-!
# Property C104: from the environment to the error of the program

A program compiled with Verificarlo is started with some contents of `VFC_BACKENDS`.  If the process starts at all, the bounds of C102 hold with the
errors that its last backend was asked for.
-/

namespace Verif.Cli
open Verif Verif.Fp Verif.Pass

variable {σ κ K P : Type}

/-! ## The backends come from command lines -/

theorem loop_loaded (load : List (List Char) → Unit → Outcome (Ctx × Unit)) (Q : Ctx → Prop) (hQ : ∀ ws c, load ws () = .ok (c, ()) → Q c) :
    ∀ (n : Nat) (buf : List Char) (p : Nat) (cs : List Ctx) (r : List Ctx × List Char × Unit), (∀ c ∈ cs, Q c) →
      Wrapper.backendLoop load n buf p cs () = .ok r → ∀ c ∈ r.1, Q c
  | 0, buf, p, cs, r, h, hr => by
    simp only [Wrapper.backendLoop] at hr
    cases hr
    exact h
  | n + 1, buf, p, cs, r, h, hr => by
    simp only [Wrapper.backendLoop] at hr
    cases hs : Wrapper.strtok ';' buf p with
    | none =>
      simp only [hs] at hr
      cases hr
      exact h
    | some t =>
      obtain ⟨t, buf1, p'⟩ := t
      simp only [hs] at hr
      cases ha : Wrapper.argsOf buf1 t with
      | exit => rw [ha] at hr; cases hr
      | ub => rw [ha] at hr; cases hr
      | ok ra =>
        rw [ha, Outcome.bind_ok] at hr
        split at hr
        · cases hr
        · cases hl : load ra.1 () with
          | exit => rw [hl] at hr; cases hr
          | ub => rw [hl] at hr; cases hr
          | ok rl =>
            rw [hl, Outcome.bind_ok] at hr
            refine loop_loaded load Q hQ n _ _ _ r (fun c hc => ?_) hr
            rcases List.mem_append.1 hc with hc | hc
            · exact h c hc
            · rw [List.mem_singleton.1 hc]
              exact hQ _ _ hl

/-- Every backend that is started was configured by some words. -/
theorem started_configured (lib : Word → Option Kind) (sd : Word → Option Bits) (posix : Bool) (check : List Ctx → Outcome Unit) (e : Wrapper.Env)
    (cs : List Ctx) (v : Option (List Char)) (h : Wrapper.vfcInit (loadBackend lib sd posix) check e () = .ok (cs, v, ())) :
    cs ≠ [] ∧ (∀ c ∈ cs, ∃ k ws, configured sd posix k ws = .ok c) ∧ check cs = .ok () := by
  simp only [Wrapper.vfcInit] at h
  cases hs : Wrapper.source e with
  | exit => rw [hs] at h; cases h
  | ub => rw [hs] at h; cases h
  | ok src =>
    rw [hs, Outcome.bind_ok] at h
    cases hl : Wrapper.backendLoop (loadBackend lib sd posix) ((src ++ [Wrapper.nul]).length + 1) (src ++ [Wrapper.nul]) 0 [] () with
    | exit => rw [hl] at h; cases h
    | ub => rw [hl] at h; cases h
    | ok r =>
      rw [hl, Outcome.bind_ok] at h
      split at h
      · cases h
      · next hne =>
        cases hc : check r.1 with
        | exit => rw [hc] at h; cases h
        | ub => rw [hc] at h; cases h
        | ok u =>
          rw [hc, Outcome.bind_ok] at h
          cases h
          refine ⟨hne, loop_loaded _ (fun c => ∃ k ws, configured sd posix k ws = .ok c) (fun ws c h => ?_) _ _ _ _ _ (by simp) hl, hc⟩
          unfold loadBackend at h
          cases ws with
          | nil => cases h
          | cons name ws =>
            simp only at h
            cases hk : lib name with
            | none => rw [hk] at h; cases h
            | some k =>
              simp only [hk] at h
              cases hc : configured sd posix k ws with
              | exit => rw [hc] at h; cases h
              | ub => rw [hc] at h; cases h
              | ok c' =>
                rw [hc, Outcome.bind_ok] at h
                cases h
                exact ⟨k, ws, hc⟩

/-! ## The bounds asked for -/

/-- Rounding to nearest. -/
def ieeeBounds : Mix.Bounds :=
  ⟨fun _ => 0, fun p => chain (fmtOf p) 0, fun p => finite (fmtOf p), fun p => normal (fmtOf p), roundUnit b32, normal b32⟩

/-- The bits of exponent and of precision for each type, and for conversions; in the modes ib and full operands are rounded too. -/
def vprecBounds (mode : Vprec.Config.Mode) (size : Wrapper.Prec → Nat × Nat) (conv : Nat × Nat) : Mix.Bounds :=
  ⟨fun _ => if mode = .ib ∨ mode = .full then 1 else 0, fun p => chain (fmtOf p) (2 ^ (-((size p).2 : ℤ) - 1)), fun p => formatRange (size p).1,
    fun p => (formatRange (size p).1).inner, 2 ^ (-(conv.2 : ℤ) - 1), formatRange conv.1⟩

/-- Monte Carlo arithmetic with errors of `δ` on the numbers that the mode says. -/
def mcaBounds (mode : Mca.Mode) (δ : Mca.Ty → ℚ) : Mix.Bounds :=
  ⟨fun _ => inbound mode, fun p => opError (mcaTy p) (δ (mcaTy p)), fun p => finite (fmtOf p), fun p => ordinary (fmtOf p),
    mcaCast (if mode = .pb ∨ mode = .mca then δ .f64 else 0) (if mode = .rr ∨ mode = .mca then δ .f64 else 0), mcaCastRange⟩

/-- `t p` bits kept; only the result in the mode ob. -/
def bitmaskBounds (mode : Bitmask.Mode) (t : Wrapper.Prec → Nat) : Mix.Bounds :=
  ⟨fun _ => if mode = .ob then 0 else 1, fun p => chain (fmtOf p) (2 ^ (1 - (t p : ℤ))), fun p => finite (fmtOf p), fun p => normal (fmtOf p),
    bitmaskCast (if mode = .ib ∨ mode = .full then 2 ^ (1 - (t .double : ℤ)) else 0) (if mode = .ob ∨ mode = .full then 2 ^ (1 - (t .double : ℤ)) else 0),
    (normal b32).inner⟩

/-- The errors of integer MCA at the default precisions, the only ones it takes. -/
def intDelta : Mca.Ty → ℚ
  | .f32 => 2 ^ (-23 : ℤ)
  | .f64 => 2 ^ (-52 : ℤ)

/-- The errors of MCA at precisions `t32` and `t64`, with the rounding of the wider type. -/
def quadDelta (t32 t64 : ℤ) : Mca.Ty → ℚ
  | .f32 => 2 ^ (-t32) + 2 ^ (-52 : ℤ)
  | .f64 => 2 ^ (-t64) + 2 ^ (-112 : ℤ)

theorem intDelta_nonneg (T : Mca.Ty) : 0 ≤ intDelta T := by cases T <;> exact (zpow_pos (by norm_num) _).le

theorem quadDelta_nonneg (t32 t64 : ℤ) (T : Mca.Ty) : 0 ≤ quadDelta t32 t64 T := by
  cases T <;> exact (add_pos (zpow_pos (by norm_num) _) (zpow_pos (by norm_num) _)).le

/-- The bounds of a configuration, for those that have one. -/
inductive Bounded : Ctx → Mix.Bounds → Prop
  /-- IEEE, with all options. -/
  | ieee (c : IeeeCfg) : Bounded (.ieee c) ieeeBounds
  /-- VPREC, unless errors are absolute. -/
  | vprec (c : VprecCfg) (h : c.base.absErr = false) : Bounded (.vprec c) (vprecBounds c.base.mode (vprecSize c.base) (vprecCastSize c.base))
  /-- Integer MCA, unless subnormal numbers are flushed. -/
  | int (c : Mca.Config.Cfg) (hd : c.daz = false) (hf : c.ftz = false) :
      Bounded (.mca .int c) (mcaBounds c.mode intDelta)
  /-- MCA, unless errors are absolute or subnormal numbers are flushed, from precision 2 on. -/
  | quad (c : Mca.Config.Cfg) (h : c.absErr = false) (hd : c.daz = false) (hf : c.ftz = false) (h32 : 2 ≤ c.prec32 ∧ c.prec32 ≤ 53)
      (h64 : 2 ≤ c.prec64 ∧ c.prec64 ≤ 113) :
      Bounded (.mca .quad c) (mcaBounds c.mode (quadDelta c.prec32 c.prec64))
  /-- Bitmask, unless subnormal numbers are flushed, with both precisions given. -/
  | bitmask (c : Bitmask.Config.Cfg) (hd : c.base.daz = false) (hf : c.base.ftz = false) (ha : ∀ T, Bitmask.Applied T c.base) :
      Bounded (.bitmask c) (bitmaskBounds c.base.mode (bitmaskPrec c.base))

theorem chain_nonneg (F : Fmt) {d : ℚ} (h : 0 ≤ d) : 0 ≤ chain F d := h.trans (le_chain F h)

theorem ieeeBounds_ok : ieeeBounds.Ok :=
  ⟨fun p => chain_nonneg _ le_rfl, fun p => by cases p <;> decide +kernel, (roundUnit_pos _).le⟩

/-- Changes that are not negative add up. -/
theorem one_le_mul {a b : ℚ} (ha : 1 ≤ a) (hb : 0 ≤ b) : 1 ≤ a * (1 + b) := by nlinarith

theorem mcaCast_nonneg {d e : ℚ} (hd : 0 ≤ d) (he : 0 ≤ e) : 0 ≤ mcaCast d e :=
  sub_nonneg.2 (one_le_mul (one_le_mul (one_le_mul (one_le_mul (by linarith) (roundUnit_pos _).le) he) (roundUnit_pos _).le) (roundUnit_pos _).le)

theorem bitmaskCast_nonneg {d e : ℚ} (hd : 0 ≤ d) (he : 0 ≤ e) : 0 ≤ bitmaskCast d e :=
  sub_nonneg.2 (one_le_mul (one_le_mul (one_le_mul (by linarith) (roundUnit_pos _).le) he) (roundUnit_pos _).le)

theorem ite_nonneg' (q : Prop) [Decidable q] {d : ℚ} (h : 0 ≤ d) : 0 ≤ if q then d else 0 := by
  split
  · exact h
  · exact le_rfl

theorem bitmaskBounds_ok (mode : Bitmask.Mode) (t : Wrapper.Prec → Nat) : (bitmaskBounds mode t).Ok :=
  ⟨fun p => chain_nonneg _ (zpow_pos (by norm_num) _).le, ieeeBounds_ok.range,
    bitmaskCast_nonneg (ite_nonneg' _ (zpow_pos (by norm_num) _).le) (ite_nonneg' _ (zpow_pos (by norm_num) _).le)⟩

theorem mcaBounds_ok (mode : Mca.Mode) (δ : Mca.Ty → ℚ) (h : ∀ T, 0 ≤ δ T) : (mcaBounds mode δ).Ok :=
  ⟨fun p => (h _).trans (le_opError _ (h _)), fun p => by
    show (finite (fmtOf p)).low ≤ (ordinary (fmtOf p)).low ∧ (ordinary (fmtOf p)).high ≤ (finite (fmtOf p)).high
    cases p <;> decide +kernel, mcaCast_nonneg (ite_nonneg' _ (h _)) (ite_nonneg' _ (h _))⟩

theorem vprecBounds_ok (mode : Vprec.Config.Mode) (size : Wrapper.Prec → Nat × Nat) (conv : Nat × Nat) : (vprecBounds mode size conv).Ok :=
  ⟨fun p => chain_nonneg _ (zpow_pos (by norm_num) _).le, fun p => by
    show (formatRange _).low ≤ (formatRange _).low + 1 ∧ (formatRange _).high - 1 ≤ (formatRange _).high
    omega, (zpow_pos (by norm_num) _).le⟩

theorem Bounded.ok {c : Ctx} {B : Mix.Bounds} (h : Bounded c B) : B.Ok := by
  cases h with
  | ieee c => exact ieeeBounds_ok
  | vprec c _ => exact vprecBounds_ok _ _ _
  | int c _ _ => exact mcaBounds_ok _ _ intDelta_nonneg
  | quad c _ _ _ _ _ => exact mcaBounds_ok _ _ (quadDelta_nonneg _ _)
  | bitmask c _ _ _ => exact bitmaskBounds_ok _ _

/-- In every configuration reached from a command line, at least one kind of error is asked for. -/
theorem configured_kind {sd : Word → Option Bits} {posix : Bool} {k : Kind} {ws : List Word} {c : Ctx} (h : configured sd posix k ws = .ok c) :
    match c with
    | .mca .quad m => argpParse posix (mcaGroups .quad sd) ws Mca.Config.init = .ok m
    | .mca .int m => argpParse posix (mcaGroups .int sd) ws Mca.Config.init = .ok m
    | .vprec m => argpParse posix vprecGroups ws vprecInit = .ok m
    | _ => True := by
  have key : ∀ {C : Type} (r : Outcome C) (f : C → Ctx), (r >>= fun x => Outcome.ok (f x)) = .ok c → ∃ x, r = .ok x ∧ f x = c := by
    intro C r f h
    cases r with
    | ok x => exact ⟨x, rfl, Outcome.ok.inj h⟩
    | exit => cases h
    | ub => cases h
  cases k <;> obtain ⟨x, h, rfl⟩ := key _ _ h <;> first | exact h | trivial

theorem backendsOf_snoc (m : Runtime σ) (sem : ShiftSem) (cs : List Ctx) (c : Ctx) :
    backendsOf (κ := κ) m sem (cs ++ [c]) = backendsOf m sem cs ++ [backendOf m sem cs.length c] := by
  simp [backendsOf, List.mapIdx_append]

/-- **C104, the contract.**  A backend that a command line has configured keeps the bounds of its configuration, after any others; MCA, if its generator
never draws one half (C21). -/
theorem C104_meets_partial (fl : Flags) (hfc : fl.fcmp = false) (sd : Word → Option Bits) (posix : Bool) (k : Kind) (ws : List Word) (c : Ctx) (h : configured sd posix k ws = .ok c)
    (B : Mix.Bounds) (hB : Bounded c B) (m : Runtime σ) (i : Nat) (hg : k = .mcaquad → ∀ s, Mca.drawn ((m.gen i).next s).1 ≠ 2 ^ 51)
    (bs : List (Wrapper.Backend σ κ)) (ctx : Nat → κ) : Meets fl B.contract (bs ++ [backendOf m .wrap i c]) ctx := by
  have hk := configured_kind h
  refine Mix.C102_meets B fl _ ctx (fun p => ?_) fun _ => ?_
  swap
  · cases hB with
    | ieee c => exact C98_cast_ieee _ bs ctx
    | vprec c ha => exact C98_cast_vprec_partial .wrap c.base ((C103_valid sd posix ws).2.2.2 c hk).1 ha bs ctx
    | int c hd hf =>
      obtain ⟨h1, h2⟩ := (C103_valid sd posix ws).2.1 c hk
      exact C98_cast_int_partial (m.gen i) c.ctx hd hf (fun | .f32 => 24 | .f64 => 53) (fun T => by cases T; exacts [h1, h2])
        (fun T => by cases T <;> decide) bs ctx
    | quad c ha hd hf h32 h64 =>
      have hk' : k = .mcaquad := by
        cases k <;> first | rfl | (exfalso; revert h; unfold configured; simp only; intro h; revert h; cases argpParse _ _ _ _ <;> intro h <;> cases h)
      have hr := ((C103_valid sd posix ws).1 .quad c hk).err.resolve_right (by simp [ha])
      obtain ⟨t32, e32⟩ : ∃ t : ℕ, c.prec32 = t := ⟨c.prec32.toNat, by omega⟩
      obtain ⟨t64, e64⟩ : ∃ t : ℕ, c.prec64 = t := ⟨c.prec64.toNat, by omega⟩
      have := C98_cast_quad_partial (m.gen i) (hg hk') c.ctx hr ha hd hf (fun | .f32 => t32 | .f64 => t64)
        (fun T => by cases T; exacts [e32, e64])
        (fun T => by
          cases T
          · show 2 ≤ t32 ∧ t32 ≤ 53
            omega
          · show 2 ≤ t64 ∧ t64 ≤ 113
            omega) bs ctx
      have e : (2 : ℚ) ^ (-(t64 : ℤ)) + 2 ^ (-112 : ℤ) = quadDelta c.prec32 c.prec64 .f64 := by
        rw [e64]; rfl
      simp only [e] at this
      exact this
    | bitmask c hd hf ha => exact C98_cast_bitmask_partial (m.bits i) c.base (ha .f64) hd hf bs ctx
  cases hB with
  | ieee c => exact C98_ieee_partial p _ { fl with cast := false } hfc bs ctx
  | vprec c ha =>
    exact C98_vprec_partial p .wrap c.base ((C103_valid sd posix ws).2.2.2 c hk).1 ha (Or.inl rfl) { fl with cast := false } hfc rfl bs ctx
  | int c hd hf =>
    obtain ⟨h1, h2⟩ := (C103_valid sd posix ws).2.1 c hk
    have := C96_int_relative_partial (m.gen i) c.ctx hd hf (fun | .f32 => 24 | .f64 => 53) (fun T => by cases T; exacts [h1, h2])
      (fun T => by cases T <;> decide) { fl with cast := false } hfc bs ctx
    have e : (fun T : Mca.Ty => (2 : ℚ) ^ (1 - (((fun | .f32 => 24 | .f64 => 53) T : ℕ) : ℤ))) = intDelta := by
      funext T
      cases T <;> rfl
    rw [e] at this
    exact this.mono fun o x y hy => rel_signed c.mode intDelta p (intDelta_nonneg _) (finite (fmtOf p)) o x y hy
  | quad c ha hd hf h32 h64 =>
    have hk' : k = .mcaquad := by
      cases k <;> first | rfl | (exfalso; revert h; unfold configured; simp only; intro h; revert h; cases argpParse _ _ _ _ <;> intro h <;> cases h)
    have hr := ((C103_valid sd posix ws).1 .quad c hk).err.resolve_right (by simp [ha])
    obtain ⟨t32, e32⟩ : ∃ t : ℕ, c.prec32 = t := ⟨c.prec32.toNat, by omega⟩
    obtain ⟨t64, e64⟩ : ∃ t : ℕ, c.prec64 = t := ⟨c.prec64.toNat, by omega⟩
    have := C96_quad_relative_partial (m.gen i) (hg hk') c.ctx hr ha hd hf (fun | .f32 => t32 | .f64 => t64)
      (fun T => by cases T; exacts [e32, e64])
      (fun T => by
        cases T
        · show 2 ≤ t32 ∧ t32 ≤ 53
          omega
        · show 2 ≤ t64 ∧ t64 ≤ 113
          omega) { fl with cast := false } hfc bs ctx
    have e : (fun T : Mca.Ty => (2 : ℚ) ^ (-(((fun | .f32 => t32 | .f64 => t64) T : ℕ) : ℤ)) + 2 ^ (-(T.wide.mw : ℤ))) =
        quadDelta c.prec32 c.prec64 := by
      funext T
      cases T
      · rw [e32]; rfl
      · rw [e64]; rfl
    rw [e] at this
    exact this.mono fun o x y hy => rel_signed c.mode (quadDelta c.prec32 c.prec64) p (quadDelta_nonneg _ _ _) (finite (fmtOf p)) o x y hy
  | bitmask c hd hf ha =>
    refine C98_bitmask_partial p (m.bits i) c.base ha ?_ hd hf { fl with cast := false } hfc rfl bs ctx
    have h1 := (ha .f32).1
    have h2 := (ha .f64).1
    unfold bitmaskPrec
    split <;> omega

/-! ## Comparisons -/

/-- A start without checks goes as well with checks that pass. -/
theorem started_checked (lib : Word → Option Kind) (sd : Word → Option Bits) (posix : Bool) {check : List Ctx → Outcome Unit} (e : Wrapper.Env)
    {cs : List Ctx} {v : Option (List Char)} (h : Wrapper.vfcInit (loadBackend lib sd posix) (fun _ => .ok ()) e () = .ok (cs, v, ()))
    (hc : check cs = .ok ()) : Wrapper.vfcInit (loadBackend lib sd posix) check e () = .ok (cs, v, ()) := by
  simp only [Wrapper.vfcInit] at h ⊢
  cases hs : Wrapper.source e with
  | exit => rw [hs] at h; cases h
  | ub => rw [hs] at h; cases h
  | ok src =>
    rw [hs, Outcome.bind_ok] at h
    rw [Outcome.bind_ok]
    cases hl : Wrapper.backendLoop (loadBackend lib sd posix) ((src ++ [Wrapper.nul]).length + 1) (src ++ [Wrapper.nul]) 0 [] () with
    | exit => rw [hl] at h; cases h
    | ub => rw [hl] at h; cases h
    | ok r =>
      rw [hl, Outcome.bind_ok] at h
      rw [Outcome.bind_ok]
      split at h
      · cases h
      · next hne =>
        rw [Outcome.bind_ok] at h
        cases h
        rw [if_neg hne, hc, Outcome.bind_ok]

/-- Only the IEEE backend compares. -/
theorem no_compare (m : Runtime σ) (sem : ShiftSem) (i : Nat) (c : Ctx) (h : ∀ x, c ≠ .ieee x) (p : Wrapper.Prec) :
    backendOf (κ := κ) m sem i c (.cmp p) = none := by
  cases c with
  | ieee x => exact absurd rfl (h x)
  | mca be c => cases be <;> rfl
  | bitmask c => rfl
  | cancel c => rfl
  | vprec c => rfl

/-- The last IEEE backend of a list. -/
theorem last_ieee : ∀ cs : List Ctx, (∃ x, Ctx.ieee x ∈ cs) → ∃ l x l', cs = l ++ .ieee x :: l' ∧ ∀ c ∈ l', ∀ y, c ≠ .ieee y
  | [], h => by obtain ⟨x, h⟩ := h; cases h
  | c :: cs, h => by
    by_cases h' : ∃ x, Ctx.ieee x ∈ cs
    · obtain ⟨l, x, l', e, hl⟩ := last_ieee cs h'
      exact ⟨c :: l, x, l', by rw [e]; rfl, hl⟩
    · obtain ⟨x, h⟩ := h
      rcases List.mem_cons.1 h with rfl | h
      · exact ⟨[], x, cs, rfl, fun c hc y hy => h' ⟨y, hy ▸ hc⟩⟩
      · exact absurd ⟨x, h⟩ h'

/-- **C104, comparisons.**  A process whose start has checked that comparisons are implemented has them done by an IEEE backend, as the machine does. -/
theorem C104_compare (fl : Flags) (m : Runtime σ) (sem : ShiftSem) (cs : List Ctx)
    (h : fl.fcmp = true → Wrapper.checkAll ⟨fl.fcmp, fl.fma, fl.cast⟩ (backendsOf (κ := κ) m sem cs) = .ok ()) (ctx : Nat → κ) :
    Compare fl (· = olt) machine (backendsOf m sem cs) ctx := by
  intro hf
  have hc := h hf
  unfold Wrapper.checkAll at hc
  have hi : Wrapper.implemented (backendsOf (κ := κ) m sem cs) (.cmp .float) = true := by
    by_contra hn
    rw [if_neg] at hc
    · cases hc
    · intro ha
      exact hn (List.all_eq_true.1 ha _ (by simp [Wrapper.required, hf]))
  have hx : ∃ x, Ctx.ieee x ∈ cs := by
    by_contra hn
    obtain ⟨b, hb, hs⟩ := List.any_eq_true.1 hi
    obtain ⟨i, hi, rfl⟩ := List.mem_mapIdx.1 hb
    rw [no_compare m sem i cs[i] (fun x hx => hn ⟨x, hx ▸ List.getElem_mem hi⟩)] at hs
    cases hs
  obtain ⟨l, x, l', rfl, hl⟩ := last_ieee cs hx
  rw [backendsOf, List.mapIdx_append, List.mapIdx_cons]
  refine Mix.ieee_compares fl _ _ _ (fun b hb p => ?_) ctx hf
  obtain ⟨i, hi, rfl⟩ := List.mem_mapIdx.1 hb
  exact no_compare m sem _ _ (hl _ (List.getElem_mem hi)) p

/-! ## Programs -/

/-- **C104.**  A program for which the analysis does not stop can be compiled with Verificarlo, with any options; if it is run with any contents of `VFC_BACKENDS`, or of the
file that `VFC_BACKENDS_FROM_FILE` names, with which the process starts, and the last backend has bounds, it is after `n` blocks where exact arithmetic
is, and every number in memory that the analysis knows is within its bound. -/
theorem C104_program_partial (fl : Flags) (lib : Word → Option Kind) (sd : Word → Option Bits) (posix : Bool) (check : List Ctx → Outcome Unit) (e : Wrapper.Env)
    (cs : List Ctx) (c : Ctx) (v : Option (List Char)) (h : Wrapper.vfcInit (loadBackend lib sd posix) check e () = .ok (cs ++ [c], v, ()))
    (B : Mix.Bounds) (hB : Bounded c B) (m : Runtime σ) (hg : (∃ q, c = .mca .quad q) → ∀ s, Mca.drawn ((m.gen cs.length).next s).1 ≠ 2 ^ 51)
    (hck : fl.fcmp = true → ∀ l, check l = .ok () → Wrapper.checkAll ⟨fl.fcmp, fl.fma, fl.cast⟩ (backendsOf (κ := κ) m .wrap l) = .ok ())
    (op1 : Wrapper.OpId → List (BitVec 64) → BitVec 64) (hM : Mix.Machine op1) (hop : fl.fcmp = true → ∀ p x, op1 (.cmp p) x = machine (.cmp p) x)
    (rest : Instr → Nat → List Nat → Nat) (ctx : Nat → κ)
    (fresh : Nat) (prog : List (Mix.Part K)) (hw : Mix.WellFormed fresh prog) (order : List Nat)
    (hp : order.Perm (workList fl (Mix.compile (σ := σ) fresh prog)))
    (cell : Nat → Option Mix.Val) (ctl : K) (n : Nat) (s : Abs Mix.Val K) (cur : Option Nat)
    (he : Mix.evalRun (Mix.errDom fl B) prog n (start cell ctl, some 0) = some (s, cur))
    (mem : Nat → Nat) (hin : Mix.Inputs B.I cell mem) (t : σ) :
    ∃ F', replaceAll Mix.wrapperSig fl (Mix.compile fresh prog) order = .ok F' ∧
      let r := run (exec (linked op1 rest (backendsOf m .wrap (cs ++ [c])) ctx)) F' n (enter 0 (fun _ => 0) ((mem, ctl), t), some 0)
      (∃ x, Mix.evalRun Mix.exactDom prog n (start (fun i => (cell i).map Mix.Val.val) ctl, some 0) = some (x, r.2) ∧ r.1.mem.1.2 = x.ctl ∧
        ∀ i v, s.cell i = some v → x.cell i = some v.val) ∧
      r.2 = cur ∧ r.1.mem.1.2 = s.ctl ∧ Mix.Inputs B.I s.cell r.1.mem.1.1 := by
  obtain ⟨k, ws, hc⟩ := (started_configured lib sd posix check e _ v h).2.1 c (by simp)
  have hcm : Compare fl (· = olt) op1 (backendsOf m .wrap (cs ++ [c])) ctx := fun hf p x s hx => by
    rw [hop hf]
    exact C104_compare fl m .wrap (cs ++ [c]) (fun hf => hck hf _ (started_configured lib sd posix check e _ v h).2.2) ctx hf p x s hx
  rw [backendsOf_snoc] at hcm ⊢
  refine Mix.C102_mixed_partial fl B hB.ok op1 hM rest _ ctx
    (C104_meets_partial { fl with fcmp := false } rfl sd posix k ws c hc B hB m cs.length (fun hk => hg ?_) _ ctx) hcm
    fresh prog hw order hp cell ctl n s cur he mem hin t
  subst hk
  unfold configured at hc
  simp only at hc
  revert hc
  cases argpParse posix (mcaGroups .quad sd) ws Mca.Config.init with
  | ok q => intro hc; exact ⟨q, (Outcome.ok.inj hc).symm⟩
  | exit => intro hc; cases hc
  | ub => intro hc; cases hc

/-- **C104, the IEEE backend.**  If the last context `VFC_BACKENDS` leads to is one of the IEEE backend, whatever its options, the program does
to its memory what it does without Verificarlo, and takes the same branches; partial as C90. -/
theorem C104_ieee_partial (cs : List Ctx) (c : IeeeCfg) (m : Runtime σ) (sem : ShiftSem) (sig : String → Sig) (fl : Flags)
    (rest : Instr → Nat → List Nat → Nat) (ctx : Nat → κ) (F F' : Func (P × σ)) (order : List Nat) (hF : Source sig fl F) (hb : Blind F)
    (hcm : CmpTyped Sound F) (hp : order.Perm (workList fl F)) (hr : replaceAll sig fl F order = .ok F')
    (k : Nat) (hk : ∀ ins ∈ F.all, k ≤ ins.name) (hkF : k ≤ F.fresh) (param : Nat → Nat) (p : P) (s s' : σ) (n : Nat)
    (cur : Option Nat) :
    let S : Sem (P × σ) := linked machine rest (backendsOf m sem (cs ++ [.ieee c])) ctx
    (run (exec S) F' n (enter k param (p, s), cur)).1.mem.1 = (run (exec S) F n (enter k param (p, s'), cur)).1.mem.1 ∧
      (run (exec S) F' n (enter k param (p, s), cur)).2 = (run (exec S) F n (enter k param (p, s'), cur)).2 := by
  rw [backendsOf_snoc]
  exact C90_transparent_partial sig fl rest _ _ ctx F F' order hF hb hcm hp hr k hk hkF param p s s' n cur

end Verif.Cli
