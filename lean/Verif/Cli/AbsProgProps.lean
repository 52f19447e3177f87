import Verif.Cli.VprecProps
import Verif.Pass.AbsExample
import Verif.Pass.AbsCastProps

/-!
# Property C104 with absolute errors, underflow and cancellation

The bounds of C112 for the contents of `VFC_BACKENDS`: VPREC and MCA with absolute errors, MCA and bitmask with `--daz` and `--ftz`, the cancellation
backend, and the IEEE backend with results that underflow, besides the backends of `C104_program_partial`.
-/

namespace Verif.Cli
open Verif Verif.Fp Verif.Pass Verif.Pass.Mix Verif.Pass.Mix.Gen

variable {σ κ K P : Type}

/-- Relative errors only. -/
def relLimits (B : Mix.Bounds) : Limits :=
  ⟨B.inn, B.η, B.η, fun _ => 0, fun p => ofRange (B.I p), fun p => ofRange (B.R p), fun p => ofRange (B.R p), B.cast, 0, ofRange B.C⟩

/-- Rounding to nearest, results that underflow included. -/
def ieeeLimits : Limits := ⟨fun _ => 0, unit, unit, tiny, fun p => below ((fmtOf p).bias + 1), hostBand, hostBand, unit .float, tiny .float, hostBand .float⟩

/-- Cancellation with tolerance `t`: doubles below `2^h`, and their sums from `2^l` on. -/
def cancelBounds (t l h : ℤ) : Limits :=
  ⟨fun _ => 0, unit, fun p => cancelUnit (fmtOf p) t, fun p => cancelTiny p t, fun | .float => below 128 | .double => below h,
    fun | .float => ⟨none, 127, false⟩ | .double => ⟨some l, min h 1023, false⟩, fun | .float => below 127 | .double => below (min h 1023),
    unit .float, tiny .float, hostBand .float⟩

/-- VPREC with absolute errors. -/
def vprecLimits (c : Vprec.Config.Cfg) : Limits :=
  ⟨fun _ => vprecInn c, vprecRel c, vprecRel c, vprecAbs c, fun p => below (Vprec.Spec.emax (vprecSize c p).1),
    fun p => below (Vprec.Spec.emax (vprecSize c p).1 - 1), fun p => below (Vprec.Spec.emax (vprecSize c p).1 - 1),
    chain b32 (Vprec.absUnit c.ctx (vprecCastSize c).2), vprecCastAbs c, below (Vprec.Spec.emax (vprecCastSize c).1 - 2)⟩

/-- MCA with perturbations of `δ` relatively and `ε`.  With relative errors results must not be too small (C21). -/
def mcaLimits (c : Mca.Ctx) (δ : Mca.Ty → ℚ) (ε : ℚ) (low : Bool) : Limits :=
  ⟨fun _ => mcaInn c, fun p => mcaUnit p δ, fun p => mcaUnit p δ, fun p => mcaTiny p δ ε (flushes c), fun p => below ((fmtOf p).bias + 1),
    fun p => mcaBand p low, fun p => mcaBand p low, mcaCast (δ .f64) (δ .f64), mcaCastAbs (δ .f64) ε (flushErr .f64 (flushes c)), below 124⟩

/-- Bitmask, with subnormals flushed or not. -/
def bitmaskLimits (c : Bitmask.Ctx) : Limits :=
  ⟨fun _ => bitmaskInn c, fun p => chain (fmtOf p) (keepRel c p), fun p => chain (fmtOf p) (keepRel c p), bitmaskAbs c, fun p => below ((fmtOf p).bias + 1),
    hostBand, hostBand, bitmaskCast (keepRel c .double) (keepRel c .double),
    bitmaskCastAbs (keepRel c .double) (flushErr .f64 (c.daz || c.ftz)), below 125⟩

/-- The relative errors of MCA at precisions `t32` and `t64`. -/
def mcaNoise (c : Mca.Ctx) (t32 t64 : ℤ) (T : Mca.Ty) : ℚ := noiseRel T c (match T with | .f32 => t32.toNat | .f64 => t64.toNat)

/-- The bounds of a configuration for programs compiled with the options `fl`. -/
inductive Limited (fl : Flags) : Ctx → Limits → Prop
  | rel {c : Ctx} {B : Mix.Bounds} (h : Bounded c B) : Limited fl c (relLimits B)
  | ieee (c : IeeeCfg) : Limited fl (.ieee c) ieeeLimits
  | cancel (c : Cancel.Config.Cfg) (ht : 1 ≤ c.base.tolerance) (l h : ℤ) (hl : -1021 ≤ l) (hh : h ≤ 2 * l + 970) (h0 : -1022 ≤ h) :
      Limited fl (.cancel c) (cancelBounds c.base.tolerance l h)
  | vprec (c : VprecCfg) (h : c.base.absErr = true)
      (hc : fl.cast = true → Vprec.Spec.emin (vprecCastSize c.base).1 ≤ c.base.absErrExp ∧ c.base.absErrExp ≤ 126) (h32 : Vprec.Spec.emin c.base.range32.toNat ≤ c.base.absErrExp)
      (h64 : Vprec.Spec.emin c.base.range64.toNat ≤ c.base.absErrExp) : Limited fl (.vprec c) (vprecLimits c.base)
  | quad (c : Mca.Config.Cfg) (hc : fl.cast = true → c.absErr = true → c.absErrExp ≤ 124) (h32 : 2 ≤ c.prec32 ∧ c.prec32 ≤ 53) (h64 : 2 ≤ c.prec64 ∧ c.prec64 ≤ 113)
      (ha : c.absErr = true → -970 ≤ c.absErrExp ∧ c.absErrExp ≤ 125) :
      Limited fl (.mca .quad c) (mcaLimits c.ctx (mcaNoise c.ctx c.prec32 c.prec64) (noiseAbs c.ctx) c.relErr)
  | int (c : Mca.Config.Cfg) : Limited fl (.mca .int c) (mcaLimits c.ctx intDelta 0 true)
  | bitmask (c : Bitmask.Config.Cfg) (ha : ∀ T, Bitmask.Applied T c.base) : Limited fl (.bitmask c) (bitmaskLimits c.base)

theorem unit_nonneg (p : Wrapper.Prec) : 0 ≤ unit p := (zpow_pos (by norm_num) _).le

theorem tiny_nonneg (p : Wrapper.Prec) : 0 ≤ tiny p := (zpow_pos (by norm_num) _).le

theorem ofRange_sub {S T : Range} (h1 : T.low ≤ S.low) (h2 : S.high ≤ T.high) : (ofRange S).Sub (ofRange T) where
  low l hl := ⟨S.low, rfl, by
    obtain rfl : T.low = l := Option.some.inj hl
    exact h1⟩
  high := h2
  zero h := h

theorem below_sub {a b : ℤ} (h : a ≤ b) : (below a).Sub (below b) := ⟨fun l hl => (by cases hl), h, id⟩

theorem mcaLimits_ok (c : Mca.Ctx) (δ : Mca.Ty → ℚ) (ε : ℚ) (low : Bool) (hδ : ∀ T, 0 ≤ δ T) (hε : 0 ≤ ε) : (mcaLimits c δ ε low).Ok := by
  have hs : ∀ p, (mcaBand p low).Sub (below ((fmtOf p).bias + 1)) := fun p => ⟨fun l hl => (by cases hl), by
    show ((fmtOf p).bias : ℤ) - 2 ≤ (fmtOf p).bias + 1
    omega, fun _ => rfl⟩
  refine ⟨fun p => (hδ _).trans (unit_ge p δ (hδ _)), fun p => le_rfl,
    fun p => (add_nonneg hε (flushErr_nonneg _ _)).trans (tiny_ge p δ (hδ _) ε hε _), hs, hs, mcaCast_nonneg (hδ _) (hδ _), ?_⟩
  have h1 := hδ .f64
  have h2 := flushErr_nonneg .f64 (flushes c)
  have u := unit_nonneg .float
  have v := unit_nonneg .double
  have t := tiny_nonneg .float
  have t' := tiny_nonneg .double
  show 0 ≤ mcaCastAbs _ _ _
  unfold mcaCastAbs
  generalize unit .float = a, unit .double = b, tiny .float = e, tiny .double = f at *
  positivity

theorem Limited.ok {fl : Flags} {c : Ctx} {L : Limits} (h : Limited fl c L) : L.Ok := by
  cases h with
  | rel h =>
    have hB := h.ok
    exact ⟨hB.pos, fun p => le_rfl, fun p => le_rfl, fun p => ofRange_sub (hB.range p).1 (hB.range p).2,
      fun p => ofRange_sub (hB.range p).1 (hB.range p).2, hB.cast, le_rfl⟩
  | ieee c =>
    refine ⟨unit_nonneg, fun p => le_rfl, fun p => (zpow_pos (by norm_num) _).le, fun p => below_sub ?_, fun p => below_sub ?_, unit_nonneg _, tiny_nonneg _⟩
    · show ((fmtOf p).bias : ℤ) ≤ _ + 1
      omega
    · show ((fmtOf p).bias : ℤ) ≤ _ + 1
      omega
  | cancel c ht l h hl hh h0 =>
    have d0 : (0 : ℚ) < 2 ^ (1 - c.base.tolerance) := zpow_pos (by norm_num) _
    refine ⟨unit_nonneg, fun p => ?_, fun p => ?_, fun p => ?_, fun p => ?_, unit_nonneg _, tiny_nonneg _⟩
    · show unit p ≤ (1 + unit p) * (1 + 2 ^ (1 - c.base.tolerance)) - 1
      have := unit_nonneg p
      nlinarith
    · show 0 ≤ tiny p * (1 + 2 ^ (1 - c.base.tolerance)) + 2 ^ (1 - c.base.tolerance - (fmtOf p).bias)
      have t0 : (0 : ℚ) < tiny p := zpow_pos (by norm_num) _
      have b0 : (0 : ℚ) < 2 ^ (1 - c.base.tolerance - ((fmtOf p).bias : ℤ)) := zpow_pos (by norm_num) _
      nlinarith
    · cases p
      · exact ⟨fun l hl => (by cases hl), show (127 : ℤ) ≤ 128 by decide, fun _ => rfl⟩
      · exact ⟨fun l hl => (by cases hl), min_le_left _ _, fun _ => rfl⟩
    · cases p
      · exact below_sub (by decide)
      · exact below_sub (min_le_left _ _)
  | vprec c h hc h32 h64 =>
    have d0 : ∀ p, 0 ≤ Vprec.absUnit c.base.ctx (vprecSize c.base p).2 := fun p => absUnit_nonneg _ _
    have t0 : ∀ p, (0 : ℚ) < tiny p := fun p => zpow_pos (by norm_num) _
    have k0 : (0 : ℚ) < 2 ^ c.base.absErrExp := zpow_pos (by norm_num) _
    refine ⟨fun p => chain_nonneg _ (d0 p), fun p => le_rfl, fun p => ?_, fun p => below_sub ?_, fun p => below_sub ?_,
      chain_nonneg _ (absUnit_nonneg _ _), ?_⟩
    · show 0 ≤ tiny p * (1 + Vprec.absUnit c.base.ctx (vprecSize c.base p).2) + 2 ^ c.base.absErrExp
      have := mul_nonneg (t0 p).le (add_nonneg zero_le_one (d0 p))
      linarith
    · exact sub_le_self _ (by decide)
    · exact sub_le_self _ (by decide)
    · have u := unit_nonneg .float
      have t := tiny_nonneg .float
      show 0 ≤ vprecCastAbs _
      unfold vprecCastAbs
      generalize unit .float = a, tiny .float = e at *
      positivity
  | quad c hc h32 h64 ha =>
    refine mcaLimits_ok _ _ _ _ (fun T => noiseRel_nonneg _ _ _ ?_) (noiseAbs_nonneg _)
    cases T
    · show 2 ≤ c.prec32.toNat
      omega
    · show 2 ≤ c.prec64.toNat
      omega
  | int c => exact mcaLimits_ok _ _ _ _ intDelta_nonneg le_rfl
  | bitmask c ha =>
    have k : ∀ p, 0 ≤ keepRel c.base p := fun p => (zpow_pos (by norm_num) _).le
    have hs : ∀ p, (hostBand p).Sub (below ((fmtOf p).bias + 1)) := fun p => ⟨fun l hl => (by cases hl), by
      show ((fmtOf p).bias : ℤ) ≤ (fmtOf p).bias + 1
      omega, fun _ => rfl⟩
    refine ⟨fun p => chain_nonneg _ (k p), fun p => le_rfl, fun p => ?_, hs, hs, bitmaskCast_nonneg (k _) (k _), ?_⟩
    · have t := tiny_nonneg p
      have k := k p
      have f := flushErr_nonneg (mcaTy p) (c.base.daz || c.base.ftz)
      show 0 ≤ bitmaskAbs _ _
      unfold bitmaskAbs
      positivity
    · have t := tiny_nonneg .float
      have u := unit_nonneg .float
      have k := k .double
      have f := flushErr_nonneg .f64 (c.base.daz || c.base.ftz)
      show 0 ≤ bitmaskCastAbs _ _
      unfold bitmaskCastAbs
      generalize unit .float = a, tiny .float = e at *
      positivity

/-- **C104, the contract, with absolute errors.**  A backend that a command line has configured keeps the bounds of its configuration, after any others;
MCA and cancellation, if their generators never draw one half (C21, C26). -/
theorem C104_limits_meets_partial (fl : Flags) (hfc : fl.fcmp = false) (sd : Word → Option Bits) (posix : Bool) (k : Kind) (ws : List Word) (c : Ctx)
    (h : configured sd posix k ws = .ok c) (L : Limits) (hL : Limited fl c L) (m : Runtime σ) (i : Nat)
    (hg : (k = .mcaquad ∨ ∃ q, c = .cancel q) → ∀ s, Mca.drawn ((m.gen i).next s).1 ≠ 2 ^ 51)
    (bs : List (Wrapper.Backend σ κ)) (ctx : Nat → κ) : Meets fl L.contract (bs ++ [backendOf m .wrap i c]) ctx := by
  have hk := configured_kind h
  cases hL with
  | @rel _ B hB =>
    exact (C104_meets_partial fl hfc sd posix k ws c h B hB m i (fun hk => hg (Or.inl hk)) bs ctx).mono fun o x y hy =>
      ⟨fun p => signed_abs p _ _ _ _ o x y (hy.1 p), cast_abs _ _ o x y hy.2⟩
  | ieee c =>
    exact C112_meets _ fl _ ctx (fun p => C112_ieee_partial p _ { fl with cast := false } hfc _ bs ctx) fun _ => C112_cast_ieee _ bs ctx
  | cancel c ht l e hl hh h0 =>
    have hg := hg (Or.inr ⟨c, rfl⟩)
    refine C112_meets _ fl _ ctx (fun p => ?_) fun _ => C112_cast_cancellation (m.gen i) c.base bs ctx
    cases p
    · exact C112_cancellation_partial (m.gen i) hg c.base ht { fl with cast := false } hfc .float none 128 127 (by decide) (fun h => by cases h) bs ctx
    · exact C112_cancellation_partial (m.gen i) hg c.base ht { fl with cast := false } hfc .double (some l) e (min e 1023) (min_le_right _ _)
        (fun _ => ⟨l, rfl, hl, hh, h0⟩) bs ctx
  | vprec c ha hc h32 h64 =>
    have hl := ((C103_valid sd posix ws).2.2.2 c hk).1
    exact C112_meets _ fl _ ctx (fun p => C112_vprec_partial p c.base hl ha h32 h64 { fl with cast := false } hfc rfl bs ctx)
      fun h => C112_cast_vprec_partial c.base hl ha (hc h).1 (hc h).2 bs ctx
  | quad c hc h32 h64 ha =>
    have hk' : k = .mcaquad := by
      cases k <;> first | rfl | (exfalso; revert h; unfold configured; simp only; intro h; revert h; cases argpParse _ _ _ _ <;> intro h <;> cases h)
    have hp : ∀ T, c.ctx.prec T = ((match T with | .f32 => c.prec32.toNat | .f64 => c.prec64.toNat : ℕ) : ℤ) := fun T => by
      cases T
      · exact (Int.toNat_of_nonneg (show 0 ≤ c.prec32 by omega)).symm
      · exact (Int.toNat_of_nonneg (show 0 ≤ c.prec64 by omega)).symm
    have ht : ∀ T : Mca.Ty, 2 ≤ (match T with | .f32 => c.prec32.toNat | .f64 => c.prec64.toNat) ∧
        (match T with | .f32 => c.prec32.toNat | .f64 => c.prec64.toNat) ≤ T.wide.mw + 1 := fun T => by
      cases T
      · show 2 ≤ c.prec32.toNat ∧ c.prec32.toNat ≤ 53
        omega
      · show 2 ≤ c.prec64.toNat ∧ c.prec64.toNat ≤ 113
        omega
    exact C112_meets _ fl _ ctx (fun p => C112_quad_partial p (m.gen i) (hg (Or.inl hk')) c.ctx _ hp ht
      (fun h => ⟨(ha h).1, le_trans (ha h).2 (by cases p <;> decide)⟩) { fl with cast := false } hfc _ bs ctx)
      fun hh => C112_cast_quad_partial (m.gen i) (hg (Or.inl hk')) c.ctx _ hp ht (fun h => ⟨(ha h).1, hc hh h⟩) bs ctx
  | int c =>
    obtain ⟨h1, h2⟩ := (C103_valid sd posix ws).2.1 c hk
    refine C112_meets _ fl _ ctx (fun p => ?_) fun _ => C112_cast_int_partial (m.gen i) c.ctx (fun | .f32 => 24 | .f64 => 53)
      (fun T => by cases T; exacts [h1, h2]) (fun T => by cases T <;> decide) bs ctx
    have := C112_int_partial p (m.gen i) c.ctx (fun | .f32 => 24 | .f64 => 53) (fun T => by cases T; exacts [h1, h2])
      (fun T => by cases T <;> decide) { fl with cast := false } hfc (below ((fmtOf p).bias + 1)) bs ctx
    have e : (fun T : Mca.Ty => (2 : ℚ) ^ (1 - (((fun | .f32 => 24 | .f64 => 53) T : ℕ) : ℤ))) = intDelta := by
      funext T
      cases T <;> rfl
    rw [e] at this
    exact this
  | bitmask c ha =>
    exact C112_meets _ fl _ ctx (fun p => C112_bitmask_partial p (m.bits i) c.base ha _ { fl with cast := false } hfc rfl bs ctx)
      fun _ => C112_cast_bitmask_partial (m.bits i) c.base (ha .f64) bs ctx

/-- **C104, with absolute errors.**  As `C104_program_partial`, for all backends and error modes with bounds. -/
theorem C104_limits_partial (fl : Flags) (lib : Word → Option Kind) (sd : Word → Option Bits) (posix : Bool) (check : List Ctx → Outcome Unit) (e : Wrapper.Env)
    (cs : List Ctx) (c : Ctx) (v : Option (List Char)) (h : Wrapper.vfcInit (loadBackend lib sd posix) check e () = .ok (cs ++ [c], v, ()))
    (L : Limits) (hL : Limited { fl with fcmp := false } c L) (m : Runtime σ)
    (hg : ((∃ q, c = .mca .quad q) ∨ ∃ q, c = .cancel q) → ∀ s, Mca.drawn ((m.gen cs.length).next s).1 ≠ 2 ^ 51)
    (hck : fl.fcmp = true → ∀ l, check l = .ok () → Wrapper.checkAll ⟨fl.fcmp, fl.fma, fl.cast⟩ (backendsOf (κ := κ) m .wrap l) = .ok ())
    (op1 : Wrapper.OpId → List (BitVec 64) → BitVec 64) (hM : Mix.Machine op1) (hop : fl.fcmp = true → ∀ p x, op1 (.cmp p) x = machine (.cmp p) x)
    (rest : Instr → Nat → List Nat → Nat) (ctx : Nat → κ)
    (fresh : Nat) (prog : List (Mix.Part K)) (hw : Mix.WellFormed fresh prog) (order : List Nat)
    (hp : order.Perm (workList fl (Mix.compile (σ := σ) fresh prog)))
    (cell : Nat → Option Mix.Val) (ctl : K) (n : Nat) (s : Abs Mix.Val K) (cur : Option Nat)
    (he : Mix.evalRun (absDom fl L) prog n (start cell ctl, some 0) = some (s, cur))
    (mem : Nat → Nat) (hin : Mix.Holds (Within L.I) cell mem) (t : σ) :
    ∃ F', replaceAll Mix.wrapperSig fl (Mix.compile fresh prog) order = .ok F' ∧
      let r := run (exec (linked op1 rest (backendsOf m .wrap (cs ++ [c])) ctx)) F' n (enter 0 (fun _ => 0) ((mem, ctl), t), some 0)
      (∃ x, Mix.evalRun Mix.exactDom prog n (start (fun i => (cell i).map Mix.Val.val) ctl, some 0) = some (x, r.2) ∧ r.1.mem.1.2 = x.ctl ∧
        ∀ i v, s.cell i = some v → x.cell i = some v.val) ∧
      r.2 = cur ∧ r.1.mem.1.2 = s.ctl ∧ Mix.Holds (Within L.I) s.cell r.1.mem.1.1 := by
  obtain ⟨k, ws, hc⟩ := (started_configured lib sd posix check e _ v h).2.1 c (by simp)
  have hcm : Compare fl (· = olt) op1 (backendsOf m .wrap (cs ++ [c])) ctx := fun hf p x s hx => by
    rw [hop hf]
    exact C104_compare fl m .wrap (cs ++ [c]) (fun hf => hck hf _ (started_configured lib sd posix check e _ v h).2.2) ctx hf p x s hx
  rw [backendsOf_snoc] at hcm ⊢
  refine C112_partial fl L hL.ok op1 hM rest _ ctx
    (C104_limits_meets_partial { fl with fcmp := false } rfl sd posix k ws c hc L hL m cs.length (fun hk => hg (hk.imp (fun hk => ?_) id)) _ ctx) hcm
    fresh prog hw order hp cell ctl n s cur he mem hin t
  subst hk
  unfold configured at hc
  simp only at hc
  revert hc
  cases argpParse posix (mcaGroups .quad sd) ws Mca.Config.init with
  | ok q => intro hc; exact ⟨q, (Outcome.ok.inj hc).symm⟩
  | exit => intro hc; cases hc
  | ub => intro hc; cases hc

/-- The libraries of the examples. -/
def libs (w : Word) : Option Kind :=
  if w = "libcancellation.so".toList then some .cancel else if w = "libvprec.so".toList then some .vprec else if w = "libieee.so".toList then some .ieee
  else if w = "libmca.so".toList then some .mcaquad else if w = "libbitmask.so".toList then some .bitmask else none

/-- The difference that cancels of C112, behind the backends of `VFC_BACKENDS`. -/
theorem discriminant_started (e : Wrapper.Env) (cs : List Ctx) (c : Ctx) (v : Option (List Char))
    (h : Wrapper.vfcInit (loadBackend libs (fun _ => none) false) (fun _ => .ok ()) e () = .ok (cs ++ [c], v, ()))
    (L : Limits) (hL : Limited (opts false false) c L) (b : ℚ)
    (ha : ((evalRun (absDom (opts false false) L) discriminant 1 (start (fun _ => none) 0, some 0)).any fun r =>
      r.2 == none && (r.1.cell 0).any fun v => v.prec == .float && v.val == 1 / 4 + 1 / 2 ^ 200 && decide (v.err ≤ b)) = true)
    (m : Runtime σ) (hg : ((∃ q, c = .mca .quad q) ∨ ∃ q, c = .cancel q) → ∀ s, Mca.drawn ((m.gen cs.length).next s).1 ≠ 2 ^ 51)
    (rest : Instr → Nat → List Nat → Nat) (ctx : Nat → κ) (mem : Nat → Nat) (t : σ) :
    ∃ F', replaceAll wrapperSig (opts false false) (compile 10 discriminant) [8, 7, 5, 4, 3] = .ok F' ∧
      let r := run (exec (linked machine rest (backendsOf m .wrap (cs ++ [c])) ctx)) F' 1 (enter 0 (fun _ => 0) ((mem, 0), t), some 0)
      r.2 = none ∧ ∃ y : Bits, r.1.mem.1.1 0 = Fp.word b32 y ∧ y.Fin b32 ∧ |y.val b32 - (1 / 4 + 1 / 2 ^ 200)| ≤ b := by
  obtain ⟨⟨s, cur⟩, h1, h2⟩ := (Option.any_eq_true _ _).1 ha
  simp only [Bool.and_eq_true, beq_iff_eq] at h2
  obtain ⟨rfl, h4⟩ := h2
  obtain ⟨⟨p, w, e'⟩, h5, h6⟩ := (Option.any_eq_true _ _).1 h4
  simp only [Bool.and_eq_true, beq_iff_eq, decide_eq_true_eq] at h6
  obtain ⟨⟨rfl, rfl⟩, h6⟩ := h6
  obtain ⟨F', hF, -, a1, -, a3⟩ := C104_limits_partial (opts false false) _ _ _ _ e cs c v h L hL m hg (fun h => by cases h) machine machine_machine
    (fun h => by cases h) rest ctx 10 discriminant discriminant_wf [8, 7, 5, 4, 3] discriminant_work (fun _ => none) 0 1 s none h1 mem
    (fun _ _ h => by cases h) t
  obtain ⟨y, y1, y2⟩ := a3 0 _ h5
  exact ⟨F', hF, a1, y, y2, y1.2.1, le_trans y1.2.2.2 h6⟩

/-- Cancellation with tolerance 10, after the IEEE backend: within `2^-9`. -/
example (m : Runtime σ) (hg : ∀ s, Mca.drawn ((m.gen 1).next s).1 ≠ 2 ^ 51) (rest : Instr → Nat → List Nat → Nat) (ctx : Nat → κ) (mem : Nat → Nat) (t : σ) :
    ∃ cs v, Wrapper.vfcInit (loadBackend libs (fun _ => none) false) (fun _ => .ok ()) ⟨some "libieee.so;libcancellation.so --tolerance=10".toList, none⟩ () =
        .ok (cs, v, ()) ∧
      ∃ F', replaceAll wrapperSig (opts false false) (compile 10 discriminant) [8, 7, 5, 4, 3] = .ok F' ∧
        let r := run (exec (linked machine rest (backendsOf m .wrap cs) ctx)) F' 1 (enter 0 (fun _ => 0) ((mem, 0), t), some 0)
        r.2 = none ∧ ∃ y : Bits, r.1.mem.1.1 0 = Fp.word b32 y ∧ y.Fin b32 ∧ |y.val b32 - (1 / 4 + 1 / 2 ^ 200)| ≤ 1 / 2 ^ 9 := by
  have h : Wrapper.vfcInit (loadBackend libs (fun _ => none) false) (fun _ => .ok ()) ⟨some "libieee.so;libcancellation.so --tolerance=10".toList, none⟩ () =
      .ok ([.ieee ⟨{}, false⟩] ++ [.cancel { Cancel.Config.init with base := { Cancel.Config.init.base with tolerance := 10 } }], some "libieee.so".toList, ()) := by
    decide +kernel
  exact ⟨_, _, h, discriminant_started _ _ _ _ h (cancelBounds 10 (-200) 500)
    (.cancel _ (show (1 : ℤ) ≤ 10 by decide) (-200) 500 (by decide) (by decide) (by decide)) _ (by decide +kernel) m (fun _ => hg) rest ctx mem t⟩

/-- VPREC in full mode with absolute errors up to `2^-12` (C08): within `2^-7`. -/
example (m : Runtime σ) (rest : Instr → Nat → List Nat → Nat) (ctx : Nat → κ) (mem : Nat → Nat) (t : σ) :
    ∃ cs v, Wrapper.vfcInit (loadBackend libs (fun _ => none) false) (fun _ => .ok ())
        ⟨some "libvprec.so -m full --error-mode=abs --max-abs-error-exponent=-12".toList, none⟩ () = .ok (cs, v, ()) ∧
      ∃ F', replaceAll wrapperSig (opts false false) (compile 10 discriminant) [8, 7, 5, 4, 3] = .ok F' ∧
        let r := run (exec (linked machine rest (backendsOf m .wrap cs) ctx)) F' 1 (enter 0 (fun _ => 0) ((mem, 0), t), some 0)
        r.2 = none ∧ ∃ y : Bits, r.1.mem.1.1 0 = Fp.word b32 y ∧ y.Fin b32 ∧ |y.val b32 - (1 / 4 + 1 / 2 ^ 200)| ≤ 1 / 2 ^ 7 := by
  have h : Wrapper.vfcInit (loadBackend libs (fun _ => none) false) (fun _ => .ok ())
      ⟨some "libvprec.so -m full --error-mode=abs --max-abs-error-exponent=-12".toList, none⟩ () =
      .ok ([] ++ [.vprec ⟨{ Vprec.Config.init with mode := .full, relErr := false, absErr := true, absErrExp := -12 }, vprecInit.vfi⟩],
        some "libvprec.so".toList, ()) := by
    decide +kernel
  exact ⟨_, _, h, discriminant_started _ _ _ _ h _ (.vprec _ rfl (fun h => by cases h) (by decide) (by decide)) _ (by decide +kernel) m
    (fun h => by rcases h with ⟨_, h⟩ | ⟨_, h⟩ <;> cases h) rest ctx mem t⟩

/-- MCA with absolute errors up to `2^-12` and subnormals flushed: within `2^-7`. -/
example (m : Runtime σ) (hg : ∀ s, Mca.drawn ((m.gen 0).next s).1 ≠ 2 ^ 51) (rest : Instr → Nat → List Nat → Nat) (ctx : Nat → κ) (mem : Nat → Nat) (t : σ) :
    ∃ cs v, Wrapper.vfcInit (loadBackend libs (fun _ => none) false) (fun _ => .ok ())
        ⟨some "libmca.so --error-mode=abs --max-abs-error-exponent=-12 --daz -f".toList, none⟩ () = .ok (cs, v, ()) ∧
      ∃ F', replaceAll wrapperSig (opts false false) (compile 10 discriminant) [8, 7, 5, 4, 3] = .ok F' ∧
        let r := run (exec (linked machine rest (backendsOf m .wrap cs) ctx)) F' 1 (enter 0 (fun _ => 0) ((mem, 0), t), some 0)
        r.2 = none ∧ ∃ y : Bits, r.1.mem.1.1 0 = Fp.word b32 y ∧ y.Fin b32 ∧ |y.val b32 - (1 / 4 + 1 / 2 ^ 200)| ≤ 1 / 2 ^ 7 := by
  have h : Wrapper.vfcInit (loadBackend libs (fun _ => none) false) (fun _ => .ok ())
      ⟨some "libmca.so --error-mode=abs --max-abs-error-exponent=-12 --daz -f".toList, none⟩ () =
      .ok ([] ++ [.mca .quad { Mca.Config.init with relErr := false, absErr := true, absErrExp := -12, daz := true, ftz := true }],
        some "libmca.so".toList, ()) := by
    decide +kernel
  exact ⟨_, _, h, discriminant_started _ _ _ _ h _ (.quad _ (fun h => by cases h) (by decide) (by decide) (fun _ => by decide)) _ (by decide +kernel) m
    (fun _ => hg) rest ctx mem t⟩

/-- `double x = 0x1.8p-71; float r = x * x`: the float is subnormal. -/
def square : List (Mix.Part Nat) :=
  [{ body := [.const .double 0 fun _ => ⟨false, 952, 2 ^ 51⟩, .arith .double 1 .mul 0 0, .trunc 2 1, .store 3 2 fun _ => 0]
     test := none
     next := fun k _ => (k, none) }]

theorem square_wf : WellFormed 4 square where
  ssa := by simp [square, Mix.Stmt.id]
  id := by simp [square, Mix.Stmt.id, Mix.Stmt.args]
  test := by simp [square]

/-- The square, converted by the backends of `VFC_BACKENDS`. -/
theorem square_started (e : Wrapper.Env) (cs : List Ctx) (c : Ctx) (v : Option (List Char))
    (h : Wrapper.vfcInit (loadBackend libs (fun _ => none) false) (fun _ => .ok ()) e () = .ok (cs ++ [c], v, ()))
    (L : Limits) (hL : Limited ⟨false, false, true⟩ c L) (b : ℚ)
    (ha : ((evalRun (absDom ⟨false, false, true⟩ L) square 1 (start (fun _ => none) 0, some 0)).any fun r =>
      r.2 == none && (r.1.cell 0).any fun v => v.prec == .float && v.val == 9 / 2 ^ 144 && decide (v.err ≤ b)) = true)
    (m : Runtime σ) (hg : ((∃ q, c = .mca .quad q) ∨ ∃ q, c = .cancel q) → ∀ s, Mca.drawn ((m.gen cs.length).next s).1 ≠ 2 ^ 51)
    (rest : Instr → Nat → List Nat → Nat) (ctx : Nat → κ) (mem : Nat → Nat) (t : σ) :
    ∃ F', replaceAll wrapperSig ⟨false, false, true⟩ (compile 4 square) [2, 1] = .ok F' ∧
      let r := run (exec (linked machine rest (backendsOf m .wrap (cs ++ [c])) ctx)) F' 1 (enter 0 (fun _ => 0) ((mem, 0), t), some 0)
      r.2 = none ∧ ∃ y : Bits, r.1.mem.1.1 0 = Fp.word b32 y ∧ y.Fin b32 ∧ |y.val b32 - 9 / 2 ^ 144| ≤ b := by
  obtain ⟨⟨s, cur⟩, h1, h2⟩ := (Option.any_eq_true _ _).1 ha
  simp only [Bool.and_eq_true, beq_iff_eq] at h2
  obtain ⟨rfl, h4⟩ := h2
  obtain ⟨⟨p, w, e'⟩, h5, h6⟩ := (Option.any_eq_true _ _).1 h4
  simp only [Bool.and_eq_true, beq_iff_eq, decide_eq_true_eq] at h6
  obtain ⟨⟨rfl, rfl⟩, h6⟩ := h6
  obtain ⟨F', hF, -, a1, -, a3⟩ := C104_limits_partial ⟨false, false, true⟩ _ _ _ _ e cs c v h L hL m hg (fun h => by cases h) machine machine_machine
    (fun h => by cases h) rest ctx 4 square square_wf [2, 1] (show List.Perm _ [1, 2] by decide) (fun _ => none) 0 1 s none h1 mem
    (fun _ _ h => by cases h) t
  obtain ⟨y, y1, y2⟩ := a3 0 _ h5
  exact ⟨F', hF, a1, y, y2, y1.2.1, le_trans y1.2.2.2 h6⟩

/-- Bitmask at 20 bits for doubles with subnormals flushed: the float, half of whose bits are lost by underflow, within `2^-147`. -/
example (m : Runtime σ) (rest : Instr → Nat → List Nat → Nat) (ctx : Nat → κ) (mem : Nat → Nat) (t : σ) :
    ∃ cs v, Wrapper.vfcInit (loadBackend libs (fun _ => none) false) (fun _ => .ok ())
        ⟨some "libbitmask.so --precision-binary64=20 --precision-binary32=24 --mode=full -d -f".toList, none⟩ () = .ok (cs, v, ()) ∧
      ∃ F', replaceAll wrapperSig ⟨false, false, true⟩ (compile 4 square) [2, 1] = .ok F' ∧
        let r := run (exec (linked machine rest (backendsOf m .wrap cs) ctx)) F' 1 (enter 0 (fun _ => 0) ((mem, 0), t), some 0)
        r.2 = none ∧ ∃ y : Bits, r.1.mem.1.1 0 = Fp.word b32 y ∧ y.Fin b32 ∧ |y.val b32 - 9 / 2 ^ 144| ≤ 1 / 2 ^ 147 := by
  have h : Wrapper.vfcInit (loadBackend libs (fun _ => none) false) (fun _ => .ok ())
      ⟨some "libbitmask.so --precision-binary64=20 --precision-binary32=24 --mode=full -d -f".toList, none⟩ () =
      .ok ([] ++ [.bitmask ⟨⟨.full, .zero, 24, 20, true, true, 4294967295, 18446744065119617024⟩, 0, false, 0⟩],
        some "libbitmask.so".toList, ()) := by
    decide +kernel
  exact ⟨_, _, h, square_started _ _ _ _ h _ (.bitmask _ fun T => by cases T <;> exact ⟨by decide, by decide +kernel⟩) _ (by decide +kernel) m
    (fun h => by rcases h with ⟨_, h⟩ | ⟨_, h⟩ <;> cases h) rest ctx mem t⟩

/-- VPREC in full mode with absolute errors up to `2^-30` and conversions by the backend: within `2^-28`. -/
example (m : Runtime σ) (rest : Instr → Nat → List Nat → Nat) (ctx : Nat → κ) (mem : Nat → Nat) (t : σ) :
    ∃ cs v, Wrapper.vfcInit (loadBackend libs (fun _ => none) false) (fun _ => .ok ())
        ⟨some "libvprec.so -m full --error-mode=abs --max-abs-error-exponent=-30".toList, none⟩ () = .ok (cs, v, ()) ∧
      ∃ F', replaceAll wrapperSig ⟨false, false, true⟩ (compile 4 square) [2, 1] = .ok F' ∧
        let r := run (exec (linked machine rest (backendsOf m .wrap cs) ctx)) F' 1 (enter 0 (fun _ => 0) ((mem, 0), t), some 0)
        r.2 = none ∧ ∃ y : Bits, r.1.mem.1.1 0 = Fp.word b32 y ∧ y.Fin b32 ∧ |y.val b32 - 9 / 2 ^ 144| ≤ 1 / 2 ^ 28 := by
  have h : Wrapper.vfcInit (loadBackend libs (fun _ => none) false) (fun _ => .ok ())
      ⟨some "libvprec.so -m full --error-mode=abs --max-abs-error-exponent=-30".toList, none⟩ () =
      .ok ([] ++ [.vprec ⟨{ Vprec.Config.init with mode := .full, relErr := false, absErr := true, absErrExp := -30 }, vprecInit.vfi⟩],
        some "libvprec.so".toList, ()) := by
    decide +kernel
  exact ⟨_, _, h, square_started _ _ _ _ h _ (.vprec _ rfl (fun _ => by decide) (by decide) (by decide)) _ (by decide +kernel) m
    (fun h => by rcases h with ⟨_, h⟩ | ⟨_, h⟩ <;> cases h) rest ctx mem t⟩

end Verif.Cli
