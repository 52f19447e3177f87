import Verif.Pass.AbsMca

/-!
# Property C112: conversions with absolute errors, and bitmask with flushed subnormals

With `--inst-cast` the backends convert doubles to floats.  Their errors with absolute error modes, with subnormals flushed and when the float
underflows, and those of all operations of the bitmask backend with `--daz` and `--ftz`.
-/

namespace Verif.Pass.Mix.Gen
open Verif Verif.Fp

variable {K σ κ : Type}

/-! ## The machine -/

theorem machine_abs_cast (x : List (BitVec 64)) :
    AbsCast (unit .float) (tiny .float) (hostBand .float) .cast x (fconv b64 b32 (operand b64 x 0)) := fun fA => by
  have h := host_trunc _ (operand_wf b64 x 0) fA
  exact ⟨fun _ hz => host_zero b32 _ (by rw [hz] at h; exact h), fun hz => host_abs b32 (by decide) _ _ h hz.1⟩

/-- **C112** Conversions of the IEEE backend, to subnormal floats too. -/
theorem C112_cast_ieee (count : Ieee.Op → σ → σ) (bs : List (Wrapper.Backend σ κ)) (ctx : Nat → κ) :
    MeetsCast (AbsCast (unit .float) (tiny .float) (hostBand .float)) (bs ++ [ieeeBackend count]) ctx :=
  cast_last _ _ _ rfl (fun x _ _ => ⟨_, _, fconv_wf _ _ (by decide) _, machine_abs_cast x, fun _ => rfl⟩) bs ctx

/-- **C112** Conversions of the cancellation backend, to subnormal floats too. -/
theorem C112_cast_cancellation (g : Mca.Gen σ) (cfg : Cancel.Ctx) (bs : List (Wrapper.Backend σ κ)) (ctx : Nat → κ) :
    MeetsCast (AbsCast (unit .float) (tiny .float) (hostBand .float)) (bs ++ [cancelBackend g cfg]) ctx :=
  cast_last _ _ _ rfl (fun x _ _ => ⟨_, _, fconv_wf _ _ (by decide) _, machine_abs_cast x, fun _ => rfl⟩) bs ctx

/-- Changes, one after the other. -/
theorem step_err {a b c d e d' e' : ℚ} (h1 : |b - a| ≤ d * |a| + e) (h2 : |c - b| ≤ d' * |b| + e') (hd : 0 ≤ d') :
    |c - a| ≤ ((1 + d) * (1 + d') - 1) * |a| + (e * (1 + d') + e') := by
  have hb : |b| ≤ (1 + d) * |a| + e := by
    have := abs_sub_abs_le_abs_sub b a
    linarith
  have ht := abs_sub_le c b a
  have := mul_le_mul_of_nonneg_left hb hd
  nlinarith

/-! ## VPREC with absolute errors -/

/-- The absolute error of a conversion: the threshold, rounded, and half the smallest float. -/
def vprecCastAbs (cfg : Vprec.Config.Cfg) : ℚ := 2 ^ cfg.absErrExp * (1 + unit .float) + tiny .float

/-- **C112** Conversions of VPREC in the absolute and the combined error modes, with thresholds up to `2^126` that are normal numbers of the requested format:
the number is rounded in double precision, then to a float. -/
theorem C112_cast_vprec_partial (cfg : Vprec.Config.Cfg) (hc : Vprec.Config.InLimits cfg) (habs : cfg.absErr = true)
    (hk : Vprec.Spec.emin (vprecCastSize cfg).1 ≤ cfg.absErrExp) (hk2 : cfg.absErrExp ≤ 126) (bs : List (Wrapper.Backend σ κ)) (ctx : Nat → κ) :
    MeetsCast (AbsCast (chain b32 (Vprec.absUnit cfg.ctx (vprecCastSize cfg).2)) (vprecCastAbs cfg) (below (Vprec.Spec.emax (vprecCastSize cfg).1 - 2)))
      (bs ++ [vprecBackend .wrap cfg]) ctx := by
  obtain ⟨h1, h2, h3, h4⟩ := hc
  refine cast_last _ _ _ rfl (fun x _ s => ?_) bs ctx
  have wA : (operand b64 x 0).WF b64 := operand_wf _ _ _
  have d0 := absUnit_nonneg cfg.ctx (vprecCastSize cfg).2
  have u0 : (0 : ℚ) < unit .float := zpow_pos (by norm_num) _
  have t0 : (0 : ℚ) < tiny .float := zpow_pos (by norm_num) _
  have k0 : (0 : ℚ) < 2 ^ cfg.absErrExp := zpow_pos (by norm_num) _
  obtain ⟨r, t, inp, hfmt⟩ : ∃ r t : Int, ∃ inp : Bool, (r, t, inp) = if cfg.mode = .ib then (min cfg.range64 8, min cfg.prec64 23, true)
      else (cfg.range32, cfg.prec32, false) := ⟨_, _, _, rfl⟩
  have hsz : vprecCastSize cfg = (r.toNat, t.toNat) := by
    unfold vprecCastSize vprecSize
    split_ifs at hfmt ⊢ <;> simp only [Prod.mk.injEq] at hfmt <;> rw [hfmt.1, hfmt.2.1]
  have hlim : 1 ≤ t ∧ t ≤ 23 ∧ 2 ≤ r ∧ r ≤ 8 := by
    have e1 : b32.ew = 8 := rfl
    have e2 : b64.ew = 11 := rfl
    have e3 : b32.mw = 23 := rfl
    have e4 : b64.mw = 52 := rfl
    split_ifs at hfmt <;> simp only [Prod.mk.injEq] at hfmt <;> omega
  obtain ⟨r, rfl⟩ : ∃ n : ℕ, r = n := ⟨r.toNat, by omega⟩
  obtain ⟨t, rfl⟩ : ∃ n : ℕ, t = n := ⟨t.toNat, by omega⟩
  rw [hsz] at hk d0 ⊢
  simp only [Int.toNat_natCast] at hk d0 ⊢
  have hem : Vprec.Spec.emax r ≤ 127 := by
    unfold Vprec.Spec.emax
    have : (2 : ℤ) ^ (r - 1) ≤ 2 ^ 7 := pow_le_pow_right₀ (by norm_num) (by omega)
    norm_num at this
    omega
  -- the rounding in double precision
  obtain ⟨y0, hy0, wy0⟩ : ∃ y0, (cfg.mode = .ieee ∧ y0 = operand b64 x 0 ∨ cfg.mode ≠ .ieee ∧
      Vprec.roundBinary .wrap b64 64 (operand b64 x 0) inp cfg.ctx r t = .ok y0) ∧
      Vprec.Ops.castOp .wrap cfg (operand b64 x 0) = .ok (fconv b64 b32 y0) := by
    by_cases hm : cfg.mode = .ieee
    · refine ⟨_, Or.inl ⟨hm, rfl⟩, ?_⟩
      unfold Vprec.Ops.castOp
      rw [hm]
    · obtain ⟨y0, hy0, -⟩ := Vprec.C08_result_defined b64 64 (Or.inr ⟨rfl, rfl⟩) (operand b64 x 0) inp cfg.ctx r t wA
      refine ⟨y0, Or.inr ⟨hm, hy0⟩, ?_⟩
      have hy0 : Vprec.round64 .wrap (operand b64 x 0) inp cfg.ctx (r : ℤ).toNat t = .ok y0 := hy0
      unfold Vprec.Ops.castOp
      cases hmode : cfg.mode with
      | ieee => exact absurd hmode hm
      | ob =>
        rw [hmode] at hfmt
        simp only [reduceCtorEq, if_false, Prod.mk.injEq] at hfmt
        obtain ⟨e1, e2, e3⟩ := hfmt
        simp only [← e1, ← e2]
        rw [← e3, hy0]
        rfl
      | full =>
        rw [hmode] at hfmt
        simp only [reduceCtorEq, if_false, Prod.mk.injEq] at hfmt
        obtain ⟨e1, e2, e3⟩ := hfmt
        simp only [← e1, ← e2]
        rw [← e3, hy0]
        rfl
      | ib =>
        rw [hmode] at hfmt
        simp only [if_true, Prod.mk.injEq] at hfmt
        obtain ⟨e1, e2, e3⟩ := hfmt
        simp only [← e1, ← e2]
        rw [← e3, hy0]
        rfl
  refine ⟨fconv b64 b32 y0, s, fconv_wf _ _ (by decide) _, fun fA => ?_, fun c => ?_⟩
  swap
  · show store b32 c s (Vprec.Ops.castOp .wrap cfg _ >>= fun r => .ok (r, s)) = _
    rw [wy0]
    rfl
  have key : |(operand b64 x 0).val b64| < 2 ^ Vprec.Spec.emax r → y0.WF b64 ∧ ((operand b64 x 0).val b64 = 0 → y0.val b64 = 0) ∧ y0.Fin b64 ∧
      |y0.val b64 - (operand b64 x 0).val b64| ≤ Vprec.absUnit cfg.ctx t * |(operand b64 x 0).val b64| + 2 ^ cfg.absErrExp := by
    intro hX
    rcases hy0 with ⟨-, rfl⟩ | ⟨-, hy0⟩
    · refine ⟨wA, id, fA, ?_⟩
      rw [sub_self, abs_zero]
      have := mul_nonneg d0 (abs_nonneg ((operand b64 x 0).val b64))
      linarith
    · refine ⟨?_, Vprec.C08_error_partial b64 64 (Or.inr ⟨rfl, rfl⟩) _ y0 inp cfg.ctx r t habs (by omega) (show r ≤ 11 by omega) (by omega)
        (show t ≤ 52 by omega) wA fA hk hX hy0⟩
      obtain ⟨z, hz, wz⟩ := Vprec.C08_result_defined b64 64 (Or.inr ⟨rfl, rfl⟩) (operand b64 x 0) inp cfg.ctx r t wA
      rw [hy0] at hz
      obtain rfl := Outcome.ok.inj hz
      exact wz
  refine ⟨fun _ hz => ?_, fun hz => ?_⟩
  · obtain ⟨w0, z0, f0, -⟩ := key (by rw [hz, abs_zero]; exact zpow_pos (by norm_num) _)
    have h := host_trunc y0 w0 f0
    rw [z0 hz] at h
    exact host_zero b32 _ h
  · have hX : |(operand b64 x 0).val b64| < 2 ^ (Vprec.Spec.emax r - 2) := hz.1
    obtain ⟨w0, -, f0, e0⟩ := key (lt_of_lt_of_le hX (zpow_le_zpow_right₀ (by norm_num) (by omega)))
    have hX' : |(operand b64 x 0).val b64| < 2 ^ (125 : ℤ) := lt_of_lt_of_le hX (zpow_le_zpow_right₀ (by norm_num) (by omega))
    have d1 : Vprec.absUnit cfg.ctx t ≤ 1 / 4 := by
      unfold Vprec.absUnit
      split
      · refine le_trans (zpow_le_zpow_right₀ (by norm_num) (show _ ≤ (-2 : ℤ) by omega)) (by norm_num)
      · norm_num
    have k1 : (2 : ℚ) ^ cfg.absErrExp ≤ 2 ^ (126 : ℤ) := zpow_le_zpow_right₀ (by norm_num) hk2
    have q1 : (2 : ℚ) ^ (126 : ℤ) = 2 ^ (125 : ℤ) * 2 := by norm_num
    have q2 : (2 : ℚ) ^ (127 : ℤ) = 2 ^ (125 : ℤ) * 4 := by norm_num
    have b0 := abs_sub_abs_le_abs_sub (y0.val b64) ((operand b64 x 0).val b64)
    have m0 := mul_le_mul_of_nonneg_right d1 (abs_nonneg ((operand b64 x 0).val b64))
    obtain ⟨f1, e1⟩ := host_abs b32 (by decide) _ _ (host_trunc y0 w0 f0) (by
      show _ < (2 : ℚ) ^ (127 : ℤ)
      rw [q2]
      linarith)
    refine ⟨f1, le_trans (step_err e0 e1 u0.le) (le_of_eq ?_)⟩
    unfold chain vprecCastAbs
    show ((1 + Vprec.absUnit cfg.ctx t) * (1 + unit .float) - 1) * _ + (_ * (1 + unit .float) + tiny .float) =
      ((1 + unit .float) * (1 + Vprec.absUnit cfg.ctx t) - 1) * _ + (_ * (1 + unit .float) + tiny .float)
    ring

/-! ## Monte Carlo arithmetic -/

/-- The absolute error of a conversion by MCA with perturbations of `δ` and `ε` and numbers below `φ` flushed: those of the operand, of the rounding to
a float, of the perturbation, and of the roundings to double and to float. -/
def mcaCastAbs (δ ε φ : ℚ) : ℚ :=
  ((((ε + φ) * (1 + unit .float) + tiny .float) * (1 + δ) + ε) * (1 + unit .double) + tiny .double + φ) * (1 + unit .float) + tiny .float

theorem zero_bits (F : Fmt) (x : Bits) (h : x.val F = 0) : x = zeroBits x.sign := by
  have hz : x.isZero := (mag_eq_zero F x).1 ((Vprec.val_eq_zero F x).1 h)
  obtain ⟨s, e, m⟩ := x
  obtain ⟨rfl, rfl⟩ : e = 0 ∧ m = 0 := hz
  rfl

theorem flush_zero (b s : Bool) : (if b then Mca.flush (zeroBits s) else zeroBits s) = zeroBits s := by
  split
  · unfold Mca.flush
    rw [if_neg (by unfold Mca.Subnormal zeroBits; simp)]
  · rfl

theorem zero_fin (s : Bool) : (zeroBits s).Fin b32 ∧ (zeroBits s).val b32 = 0 :=
  ⟨show (0 : ℕ) ≠ b32.expInf by decide, Vprec.val_zero _ _⟩

theorem mca_abs_cast (cfg : Mca.Ctx) (δ : Mca.Ty → ℚ) (hδ : 0 ≤ δ .f64 ∧ δ .f64 ≤ 3 / 4) (ε : ℚ) (hε : 0 ≤ ε) (hε2 : ε ≤ 2 ^ (124 : ℤ)) (low : Bool)
    (x : List (BitVec 64)) (y : Bits) (h : McaContract cfg (fun T => Changed T (δ T) ε low) .cast x y) :
    AbsCast (mcaCast (δ .f64) (δ .f64)) (mcaCastAbs (δ .f64) ε (flushErr .f64 (flushes cfg))) (below 124) .cast x y := by
  intro fA
  obtain ⟨args, z, h1, h2, h3⟩ := h
  have wA : (operand b64 x 0).WF b64 := operand_wf _ _ _
  have hops : ∀ a ∈ (operandsOf .cast x).map fun a => fconv Mca.Ty.f64.fmt Mca.Ty.f64.wide (if cfg.daz then Mca.flush a else a), a.WF Mca.Ty.f64.wide := by
    intro b hb
    obtain ⟨c, -, rfl⟩ := List.mem_map.1 hb
    exact fconv_wf _ _ (wide_mw _) _
  have h0 := args_changed .f64 _ ε low cfg.mode _ args hops h1
  obtain ⟨c, rfl, hc⟩ : ∃ c, args = [c] ∧ Changed .f64 (if cfg.mode = .pb ∨ cfg.mode = .mca then δ .f64 else 0)
      (if cfg.mode = .pb ∨ cfg.mode = .mca then ε else 0) low (fconv b64 b128 (if cfg.daz then Mca.flush (operand b64 x 0) else operand b64 x 0)) c := by
    clear h1
    cases h0 with
    | cons n1 h0 => cases h0; exact ⟨_, rfl, n1⟩
  clear h0 h1
  replace h2 : if cfg.mode = .rr ∨ cfg.mode = .mca then Changed .f64 (δ .f64) ε low (fconv b32 b128 (fconv b128 b32 c)) z
      else z = fconv b32 b128 (fconv b128 b32 c) := h2
  replace h3 : y = fconv b64 b32 (if cfg.ftz then Mca.flush (fconv b128 b64 z) else fconv b128 b64 z) := h3
  replace h2 : Changed .f64 (δ .f64) ε low (fconv b32 b128 (fconv b128 b32 c)) z := by
    split_ifs at h2
    · exact h2
    · rw [h2]
      exact .refl hδ.1 hε _ (fconv_wf b32 b128 (by decide) _)
  generalize operand b64 x 0 = A at *
  refine ⟨fun _ hz => ?_, fun hz => ?_⟩
  · rw [zero_bits b64 A hz, flush_zero, fconv_zero b64 b128 (by decide) (by decide)] at hc
    rw [hc.special (.inl ⟨rfl, rfl⟩), fconv_zero b128 b32 (by decide) (by decide), fconv_zero b32 b128 (by decide) (by decide)] at h2
    rw [h3, h2.special (.inl ⟨rfl, rfl⟩), fconv_zero b128 b64 (by decide) (by decide), flush_zero, fconv_zero b64 b32 (by decide) (by decide)]
    exact zero_fin _
  have hA : |A.val b64| < 2 ^ (124 : ℤ) := hz.1
  have u0 : (0 : ℚ) < unit .float := zpow_pos (by norm_num) _
  have t0 : (0 : ℚ) < tiny .float := zpow_pos (by norm_num) _
  have v0 : (0 : ℚ) < unit .double := zpow_pos (by norm_num) _
  have s0 : (0 : ℚ) < tiny .double := zpow_pos (by norm_num) _
  have u1 : unit .float ≤ 1 / 1000 := by norm_num [unit, fmtOf, b32]
  have t1 : tiny .float ≤ 1 := by unfold tiny; exact zpow_le_one_of_nonpos₀ (by norm_num) (by decide)
  have v1 : unit .double ≤ 1 / 1000 := by norm_num [unit, fmtOf, b64]
  have s1 : tiny .double ≤ 1 := by unfold tiny; exact zpow_le_one_of_nonpos₀ (by norm_num) (by decide)
  have M : (1000 : ℚ) ≤ 2 ^ (124 : ℤ) := by norm_num
  have q : (2 : ℚ) ^ (127 : ℤ) = 8 * 2 ^ (124 : ℤ) := by norm_num
  -- the flushing
  obtain ⟨f1, f2⟩ := flushErr_le .f64 cfg.daz cfg.ftz
  have φ0 := flushErr_nonneg .f64 (flushes cfg)
  have φ1 : flushErr .f64 (flushes cfg) ≤ 1 := by
    unfold flushErr
    split
    · exact zpow_le_one_of_nonpos₀ (by norm_num) (by decide)
    · norm_num
  change flushErr .f64 cfg.daz ≤ flushErr .f64 (flushes cfg) at f1
  change flushErr .f64 cfg.ftz ≤ flushErr .f64 (flushes cfg) at f2
  generalize flushErr .f64 (flushes cfg) = φ at *
  -- the operand
  obtain ⟨fc, ec⟩ := operand_changed .f64 _ _ (by split_ifs <;> [exact hδ.1; exact le_rfl]) (by split_ifs <;> [exact hε; exact le_rfl]) low cfg.daz A c wA fA hc
  replace ec : |c.val b128 - A.val b64| ≤ δ .f64 * |A.val b64| + (ε + φ) := by
    refine le_trans ec ?_
    have g := mul_nonneg hδ.1 (abs_nonneg (A.val b64))
    split_ifs
    · show _ ≤ δ .f64 * |A.val b64| + (ε + φ)
      show δ .f64 * |A.val b64| + ε + _ ≤ _
      linarith
    · rw [zero_mul, zero_add, zero_add]
      linarith
  clear hc
  generalize δ .f64 = d at *
  have bc := abs_sub_abs_le_abs_sub (c.val b128) (A.val b64)
  have mc := mul_le_mul_of_nonneg_right hδ.2 (abs_nonneg (A.val b64))
  have cc : |c.val b128| ≤ 2.76 * 2 ^ (124 : ℤ) := by linarith
  -- the conversion
  have hv := host_conv b128 b32 (by decide) c fc (by show _ < (2 : ℚ) ^ (127 : ℤ); linarith)
  obtain ⟨fv, ev⟩ := host_abs b32 (by decide) _ _ hv (by show _ < (2 : ℚ) ^ (127 : ℤ); linarith)
  change |(fconv b128 b32 c).val b32 - c.val b128| ≤ unit .float * |c.val b128| + tiny .float at ev
  obtain ⟨ww, fw, vw⟩ := widen_val wider32_128 _ hv.wf fv
  have bv := abs_sub_abs_le_abs_sub ((fconv b128 b32 c).val b32) (c.val b128)
  have mv := mul_le_mul_of_nonneg_right u1 (abs_nonneg (c.val b128))
  have cv : |(fconv b128 b32 c).val b32| ≤ 2.77 * 2 ^ (124 : ℤ) := by linarith
  have e2 := step_err ec ev u0.le
  -- the perturbation of the result
  have key : z.Fin b128 ∧ |z.val b128 - (fconv b128 b32 c).val b32| ≤ d * |(fconv b128 b32 c).val b32| + ε := by
    rw [← vw]
    by_cases hz : (fconv b128 b32 c).isZero
    · have e : fconv b128 b32 c = zeroBits (fconv b128 b32 c).sign := zero_bits b32 _ ((Vprec.val_eq_zero b32 _).2 ((mag_eq_zero b32 _).2 hz))
      have hs : Mca.Special b128 (fconv b32 b128 (fconv b128 b32 c)) := by
        rw [e, fconv_zero b32 b128 (by decide) (by decide)]
        exact .inl ⟨rfl, rfl⟩
      rw [h2.special hs, sub_self, abs_zero]
      exact ⟨fw, add_nonneg (mul_nonneg hδ.1 (abs_nonneg _)) hε⟩
    · refine h2.near fw (fun _ => ?_) ?_
      · show _ ≤ |(fconv b32 b128 (fconv b128 b32 c)).val b128|
        rw [vw]
        exact le_trans (zpow_le_zpow_right₀ (by norm_num) (show wideLow .f64 ≤ b32.uexp by decide)) (val_ge b32 _ hz)
      · show |(fconv b32 b128 (fconv b128 b32 c)).val b128| < _
        rw [vw]
        refine lt_of_lt_of_le (show _ < (2 : ℚ) ^ (127 : ℤ) by linarith) (zpow_le_zpow_right₀ (by norm_num) (by decide))
  obtain ⟨fz, ez⟩ := key
  have bz := abs_sub_abs_le_abs_sub (z.val b128) ((fconv b128 b32 c).val b32)
  have mz := mul_le_mul_of_nonneg_right hδ.2 (abs_nonneg ((fconv b128 b32 c).val b32))
  have cz : |z.val b128| ≤ 5.85 * 2 ^ (124 : ℤ) := by linarith
  have e3 := step_err e2 ez hδ.1
  -- the rounding to double
  have qq : (2 : ℚ) ^ (127 : ℤ) ≤ 2 ^ (b64.bias : ℤ) := zpow_le_zpow_right₀ (by norm_num) (by decide)
  have hw := host_conv b128 b64 (by decide) z fz (by linarith)
  obtain ⟨fw, ew⟩ := host_abs b64 (by decide) _ _ hw (by linarith)
  change |(fconv b128 b64 z).val b64 - z.val b128| ≤ unit .double * |z.val b128| + tiny .double at ew
  have bw := abs_sub_abs_le_abs_sub ((fconv b128 b64 z).val b64) (z.val b128)
  have mw := mul_le_mul_of_nonneg_right v1 (abs_nonneg (z.val b128))
  obtain ⟨w4, f4, l4, e4⟩ := flush_error .f64 cfg.ftz _ hw.wf fw
  have e5 := step_err e3 ew v0.le
  have e6 := step_err e5 (show _ ≤ 0 * _ + φ by rw [zero_mul, zero_add]; exact le_trans e4 f2) le_rfl
  -- the rounding to float
  have hy := host_trunc _ w4 f4
  obtain ⟨fy, ey⟩ := host_abs b32 (by decide) _ _ hy (by
    show _ < (2 : ℚ) ^ (127 : ℤ)
    refine lt_of_le_of_lt l4 ?_
    show |(fconv b128 b64 z).val b64| < _
    linarith)
  rw [← h3] at fy ey
  have e7 := step_err e6 (show _ ≤ unit .float * _ + tiny .float from ey) u0.le
  refine ⟨fy, le_trans e7 (le_of_eq ?_)⟩
  unfold mcaCast mcaCastAbs
  show _ = ((1 + d) * (1 + unit .float) * (1 + d) * (1 + unit .double) * (1 + unit .float) - 1) * _ + _
  ring

/-- **C112** Conversions of the quad backend: all modes and error modes, with and without `--daz` and `--ftz`. -/
theorem C112_cast_quad_partial (g : Mca.Gen σ) (hg : ∀ s, Mca.drawn (g.next s).1 ≠ 2 ^ 51) (cfg : Mca.Ctx) (t : Mca.Ty → Nat)
    (hp : ∀ T, cfg.prec T = t T) (ht : ∀ T, 2 ≤ t T ∧ t T ≤ T.wide.mw + 1)
    (ha : cfg.absErr = true → -970 ≤ cfg.absErrExp ∧ cfg.absErrExp ≤ 124) (bs : List (Wrapper.Backend σ κ)) (ctx : Nat → κ) :
    MeetsCast (AbsCast (mcaCast (noiseRel .f64 cfg (t .f64)) (noiseRel .f64 cfg (t .f64)))
      (mcaCastAbs (noiseRel .f64 cfg (t .f64)) (noiseAbs cfg) (flushErr .f64 (flushes cfg))) (below 124))
      (bs ++ [mcaBackend (Mca.quadPerturb g) g cfg]) ctx := by
  have hm : Meets ⟨false, false, true⟩ (McaContract cfg fun T => Changed T (noiseRel T cfg (t T)) (noiseAbs cfg) cfg.relErr)
      (bs ++ [mcaBackend (Mca.quadPerturb g) g cfg]) ctx := by
    refine mca_meets _ g cfg _ (fun T s x hx => ?_) _ rfl bs ctx
    obtain ⟨y, s', h1, h2⟩ := quad_changed g hg T cfg (t T) (hp T) (ht T).1 (ht T).2 (fun h => by
      obtain ⟨a, b⟩ := ha h
      cases T
      · exact ⟨a, by show _ ≤ (1023 : ℤ) - 2; omega⟩
      · exact ⟨by show (53 : ℤ) - 16383 ≤ _; omega, by show _ ≤ (16383 : ℤ) - 2; omega⟩) s x hx
    exact ⟨y, s', h1, h2, h2.wf⟩
  refine MeetsCast.mono (Meets.cast rfl hm) fun x y h => mca_abs_cast cfg (fun T => noiseRel T cfg (t T)) ⟨noiseRel_nonneg _ _ _ (ht .f64).1, ?_⟩ _ (noiseAbs_nonneg cfg) ?_ _ x y h
  · have h := drawRel_bounds .f64 cfg (t .f64) (ht .f64).1
    have u0 : (0 : ℚ) < 2 ^ (-(Mca.Ty.f64.wide.mw : ℤ) - 1) := zpow_pos (by norm_num) _
    have u1 : (2 : ℚ) ^ (-(Mca.Ty.f64.wide.mw : ℤ) - 1) ≤ 1 / 8 := by decide +kernel
    unfold noiseRel
    split_ifs
    · nlinarith
    · linarith
  · unfold noiseAbs
    split_ifs with h
    · exact zpow_le_zpow_right₀ (by norm_num) (ha h).2
    · exact (zpow_pos (by norm_num) _).le

/-- **C112** Conversions of integer MCA, with and without `--daz` and `--ftz`. -/
theorem C112_cast_int_partial (g : Mca.Gen σ) (cfg : Mca.Ctx) (t : Mca.Ty → Nat) (hp : ∀ T, cfg.prec T = t T)
    (ht : ∀ T, 2 ≤ t T ∧ t T ≤ T.wide.mw) (bs : List (Wrapper.Backend σ κ)) (ctx : Nat → κ) :
    MeetsCast (AbsCast (mcaCast (2 ^ (1 - (t .f64 : ℤ))) (2 ^ (1 - (t .f64 : ℤ))))
      (mcaCastAbs (2 ^ (1 - (t .f64 : ℤ))) 0 (flushErr .f64 (flushes cfg))) (below 124)) (bs ++ [mcaIntBackend .wrap g cfg]) ctx := by
  have hm : Meets ⟨false, false, true⟩ (McaContract cfg fun T => Changed T (2 ^ (1 - (t T : ℤ))) 0 true) (bs ++ [mcaIntBackend .wrap g cfg]) ctx := by
    refine mca_meets _ g cfg _ (fun T s x hx => ?_) _ rfl bs ctx
    obtain ⟨y, s', h1, h2⟩ := int_changed g T cfg (t T) (hp T) (by have := (ht T).1; omega) (ht T).2 s x hx
    exact ⟨y, s', h1, h2, h2.wf⟩
  refine MeetsCast.mono (Meets.cast rfl hm) fun x y h => mca_abs_cast cfg (fun T => 2 ^ (1 - (t T : ℤ))) ⟨(zpow_pos (by norm_num) _).le, ?_⟩ _ le_rfl
    (zpow_pos (by norm_num) _).le _ x y h
  have : (2 : ℚ) ^ (1 - (t .f64 : ℤ)) ≤ 2 ^ (-1 : ℤ) := zpow_le_zpow_right₀ (by norm_num) (by have := (ht .f64).1; omega)
  rw [show (2 : ℚ) ^ (-1 : ℤ) = 1 / 2 by norm_num] at this
  linarith

/-! ## Bitmask with flushed subnormals -/

theorem daz_flush (p : Wrapper.Prec) (a : Bits) : Fp.daz (fmtOf p) a = Mca.flush a := Mca.daz_eq_flush _ (by cases p <;> decide) a

theorem keeps_fin {F : Fmt} {t : Nat} {x y : Bits} (k : Bitmask.Keeps F t x y) (h : x.Fin F) : y.Fin F := by
  unfold Bits.Fin at h ⊢
  rw [k.2.2.1]
  exact h

/-- Whether operands change: in the modes ib and full, and with `--daz`. -/
def bitmaskInn (cfg : Bitmask.Ctx) : Nat := if cfg.mode = .ib ∨ cfg.mode = .full ∨ cfg.daz = true then 1 else 0

/-- The error of the kept bits. -/
def keepRel (cfg : Bitmask.Ctx) (p : Wrapper.Prec) : ℚ := 2 ^ (1 - (bitmaskPrec cfg p : ℤ))

/-- The absolute error: the smallest number of the type, its bits changed, and what is flushed. -/
def bitmaskAbs (cfg : Bitmask.Ctx) (p : Wrapper.Prec) : ℚ := tiny p * (1 + keepRel cfg p) + flushErr (mcaTy p) (cfg.daz || cfg.ftz)

section
variable (p : Wrapper.Prec) (cfg : Bitmask.Ctx) (ht : 1 ≤ bitmaskPrec cfg p)
include ht

/-- An operand. -/
theorem bitmask_operand (A A1 : Bits) (wA : A.WF (fmtOf p)) (fA : A.Fin (fmtOf p))
    (hk : Bitmask.Keeps (fmtOf p) (bitmaskPrec cfg p) (if cfg.daz then Mca.flush A else A) A1)
    (hm : cfg.mode = .ieee ∨ cfg.mode = .ob → A1 = if cfg.daz then Mca.flush A else A) :
    A1.Fin (fmtOf p) ∧ |A1.val (fmtOf p) - A.val (fmtOf p)| ≤
      bitmaskInn cfg * (chain (fmtOf p) (keepRel cfg p) * |A.val (fmtOf p)| + bitmaskAbs cfg p) := by
  have hT : fmtOf p = (mcaTy p).fmt := fmtOf_eq p
  obtain ⟨w1, f1, l1, e1⟩ := flush_error (mcaTy p) cfg.daz A (by rw [← hT]; exact wA) (by rw [← hT]; exact fA)
  rw [← hT] at w1 f1 l1 e1
  refine ⟨keeps_fin hk f1, ?_⟩
  have k0 : 0 < keepRel cfg p := zpow_pos (by norm_num) _
  have u0 : 0 < unit p := zpow_pos (by norm_num) _
  have t0 : 0 < tiny p := zpow_pos (by norm_num) _
  have φ := (flushErr_le (mcaTy p) cfg.daz cfg.ftz).1
  have φ0 := flushErr_nonneg (mcaTy p) cfg.daz
  have e2 := keeps_rel _ _ ht _ _ hk
  change _ ≤ keepRel cfg p * _ at e2
  have e3 := abs_sub_le (A1.val (fmtOf p)) ((if cfg.daz then Mca.flush A else A).val (fmtOf p)) (A.val (fmtOf p))
  have e4 := mul_le_mul_of_nonneg_left l1 k0.le
  have hc : keepRel cfg p ≤ chain (fmtOf p) (keepRel cfg p) := by
    unfold chain
    change _ ≤ (1 + unit p) * (1 + keepRel cfg p) - 1
    nlinarith
  have e5 := mul_le_mul_of_nonneg_right hc (abs_nonneg (A.val (fmtOf p)))
  have e6 : flushErr (mcaTy p) cfg.daz ≤ bitmaskAbs cfg p := by
    unfold bitmaskAbs
    have := mul_pos t0 (show 0 < 1 + keepRel cfg p by linarith)
    linarith
  unfold bitmaskInn
  by_cases hi : cfg.mode = .ib ∨ cfg.mode = .full ∨ cfg.daz = true
  · rw [if_pos hi, Nat.cast_one, one_mul]
    linarith
  · rw [if_neg hi, Nat.cast_zero, zero_mul]
    simp only [not_or] at hi
    have hm := hm (by
      obtain ⟨i1, i2, -⟩ := hi
      revert i1 i2
      cases cfg.mode <;> simp)
    rw [hm, if_neg hi.2.2, sub_self, abs_zero]

/-- A result. -/
theorem bitmask_result (z : ℚ) (v v1 : Bits) (hv : Vprec.Host (fmtOf p) z v) (hk : Bitmask.Keeps (fmtOf p) (bitmaskPrec cfg p) v v1) :
    let y := if cfg.ftz then Mca.flush v1 else v1
    ((hostBand p).zero = true → z = 0 → y.Fin (fmtOf p) ∧ y.val (fmtOf p) = 0) ∧
    ((hostBand p).Has z → y.Fin (fmtOf p) ∧ |y.val (fmtOf p) - z| ≤ chain (fmtOf p) (keepRel cfg p) * |z| + bitmaskAbs cfg p) := by
  have hT : fmtOf p = (mcaTy p).fmt := fmtOf_eq p
  have k0 : 0 < keepRel cfg p := zpow_pos (by norm_num) _
  have e2 := keeps_rel _ _ ht _ _ hk
  change _ ≤ keepRel cfg p * _ at e2
  have fl : v.Fin (fmtOf p) → (if cfg.ftz then Mca.flush v1 else v1).Fin (fmtOf p) ∧
      |(if cfg.ftz then Mca.flush v1 else v1).val (fmtOf p)| ≤ |v1.val (fmtOf p)| ∧
      |(if cfg.ftz then Mca.flush v1 else v1).val (fmtOf p) - v1.val (fmtOf p)| ≤ flushErr (mcaTy p) cfg.ftz := by
    intro fv
    obtain ⟨-, f1, l1, e1⟩ := flush_error (mcaTy p) cfg.ftz v1 (by rw [← hT]; exact hk.1) (by rw [← hT]; exact keeps_fin hk fv)
    rw [← hT] at f1 l1 e1
    exact ⟨f1, l1, e1⟩
  refine ⟨fun _ hz => ?_, fun hz => ?_⟩
  · subst hz
    obtain ⟨fv, ev⟩ := host_zero _ _ hv
    obtain ⟨f1, l1, -⟩ := fl fv
    rw [ev, abs_zero, mul_zero, sub_zero] at e2
    exact ⟨f1, abs_eq_zero.1 (le_antisymm (le_trans l1 e2) (abs_nonneg _))⟩
  · obtain ⟨fv, ev⟩ := host_abs (fmtOf p) (by cases p <;> decide) z v hv hz.1
    change _ ≤ unit p * |z| + tiny p at ev
    obtain ⟨f1, -, e1⟩ := fl fv
    refine ⟨f1, ?_⟩
    have φ := (flushErr_le (mcaTy p) cfg.daz cfg.ftz).2
    have s1 := step_err ev (d' := keepRel cfg p) (e' := 0) (by rw [add_zero]; exact e2) k0.le
    have s2 := step_err s1 (d' := 0) (e' := flushErr (mcaTy p) cfg.ftz) (by rw [zero_mul, zero_add]; exact e1) le_rfl
    refine le_trans s2 ?_
    unfold chain bitmaskAbs
    change _ ≤ ((1 + unit p) * (1 + keepRel cfg p) - 1) * |z| + _
    linarith

end

/-- **C112** Bitmask with a precision asked for both types, in any mode, with and without `--daz` and `--ftz`, results that underflow included. -/
theorem C112_bitmask_partial (p : Wrapper.Prec) (g : Bitmask.Gen σ) (cfg : Bitmask.Ctx) (hap : ∀ T, Bitmask.Applied T cfg) (I : Band)
    (fl : Flags) (hfc : fl.fcmp = false) (hca : fl.cast = false) (bs : List (Wrapper.Backend σ κ)) (ctx : Nat → κ) :
    Meets fl (AbsContract p (bitmaskInn cfg) (chain (fmtOf p) (keepRel cfg p)) (chain (fmtOf p) (keepRel cfg p)) (bitmaskAbs cfg p) I (hostBand p) (hostBand p))
      (bs ++ [bitmaskBackend g cfg]) ctx := by
  refine meets_last fl _ _ (fun o ho => ?_) bs ctx
  have hmw : ∀ p, 1 ≤ (fmtOf p).mw := by intro p; cases p <;> decide
  have hget : ∀ (F : Fmt) (l : List Bits), (∀ x ∈ l, x.WF F) → ∀ k, (l.getD k (zeroBits false)).WF F := by
    intro F l hl k
    rw [List.getD_eq_getElem?_getD]
    cases h : l[k]? with
    | none => exact Vprec.zero_wf _ _
    | some y => exact hl y (List.mem_of_getElem? h)
  have hprec : ∀ q, (cfg.prec (bitmaskTy q)).toNat = bitmaskPrec cfg q := by
    intro q
    unfold bitmaskPrec
    cases q
    · rfl
    · rw [if_neg (by decide)]; rfl
  have ht : ∀ q, 1 ≤ bitmaskPrec cfg q := fun q => by
    rw [← hprec]
    have := (hap (bitmaskTy q)).1
    omega
  have hfl : ∀ q (a : Bits), (if cfg.ftz then Fp.daz (fmtOf q) a else a) = if cfg.ftz then Mca.flush a else a := fun q a => by rw [daz_flush]
  have hwf : ∀ q (a : Bits), a.WF (fmtOf q) → (if cfg.ftz then Fp.daz (fmtOf q) a else a).WF (fmtOf q) := fun q a ha => by
    split
    · exact Bitmask.daz_wf _ _ ha
    · exact ha
  rcases o with ⟨a, q⟩ | q | q | _
  · refine ⟨_, rfl, fun x _ s => ?_⟩
    obtain ⟨args, res, s', h1, h2, h3, h4, -⟩ := Bitmask.C24_operation g (bitmaskTy q) (binaryC (fmtOf q) a) cfg
      (hap _) s [operand (fmtOf q) x 0, operand (fmtOf q) x 1]
      (by
        intro y hy
        simp only [List.mem_cons, List.not_mem_nil, or_false] at hy
        rw [bitmaskTy_fmt]
        rcases hy with rfl | rfl <;> exact operand_wf _ _ _)
      (by
        rw [bitmaskTy_fmt]
        intro l hl
        exact operatorC_wf _ (hmw q) _ _ (hget _ l hl _) (hget _ l hl _) _)
    rw [bitmaskTy_fmt, hprec] at h2 h3
    rw [bitmaskTy_fmt] at h1 h4
    have hops : (if cfg.daz = true then [operand (fmtOf q) x 0, operand (fmtOf q) x 1].map (Fp.daz (fmtOf q)) else [operand (fmtOf q) x 0, operand (fmtOf q) x 1]) =
        [if cfg.daz then Mca.flush (operand (fmtOf q) x 0) else operand (fmtOf q) x 0,
          if cfg.daz then Mca.flush (operand (fmtOf q) x 1) else operand (fmtOf q) x 1] := by
      split <;> simp [daz_flush]
    rw [hops] at h2 h4
    obtain ⟨c, d, rfl, kc, kd⟩ : ∃ c d, args = [c, d] ∧ Bitmask.Keeps (fmtOf q) (bitmaskPrec cfg q) _ c ∧ Bitmask.Keeps (fmtOf q) (bitmaskPrec cfg q) _ d := by
      cases h2 with
      | cons k1 h => cases h with
        | cons k2 h => cases h; exact ⟨_, _, rfl, k1, k2⟩
    have he : binaryC (fmtOf q) a [c, d] = operatorC (fmtOf q) c d a := rfl
    rw [he] at h3
    refine ⟨_, s', hwf q res h3.1, ?_, fun c => ?_⟩
    · rintro rfl fA fB - -
      obtain ⟨fc, ec⟩ := bitmask_operand q cfg (ht q) _ c (operand_wf _ _ _) fA kc (fun hm => by have := h4 hm; simp only [List.cons.injEq] at this; exact this.1)
      obtain ⟨fd, ed⟩ := bitmask_operand q cfg (ht q) _ d (operand_wf _ _ _) fB kd (fun hm => by have := h4 hm; simp only [List.cons.injEq] at this; exact this.2.1)
      refine ⟨_, _, ec, ed, fun hdiv => ?_⟩
      have := bitmask_result q cfg (ht q) _ _ res (machine_host q a c d fc fd hdiv) h3
      simp only [ite_self, hfl]
      exact this
    · simp only [h1, store]
      rfl
  · simp [Wrapper.emitted, hfc] at ho
  · refine ⟨_, rfl, fun x _ s => ?_⟩
    obtain ⟨args, res, s', h1, h2, h3, h4, -⟩ := Bitmask.C24_operation g (bitmaskTy q) (ternaryC (fmtOf q)) cfg
      (hap _) s [operand (fmtOf q) x 0, operand (fmtOf q) x 1, operand (fmtOf q) x 2]
      (by
        intro y hy
        simp only [List.mem_cons, List.not_mem_nil, or_false] at hy
        rw [bitmaskTy_fmt]
        rcases hy with rfl | rfl | rfl <;> exact operand_wf _ _ _)
      (by
        rw [bitmaskTy_fmt]
        intro l hl
        exact ffma_wf _ (hmw q) _ _ _ (hget _ l hl _))
    rw [bitmaskTy_fmt, hprec] at h2 h3
    rw [bitmaskTy_fmt] at h1 h4
    have hops : (if cfg.daz = true then [operand (fmtOf q) x 0, operand (fmtOf q) x 1, operand (fmtOf q) x 2].map (Fp.daz (fmtOf q))
          else [operand (fmtOf q) x 0, operand (fmtOf q) x 1, operand (fmtOf q) x 2]) =
        [if cfg.daz then Mca.flush (operand (fmtOf q) x 0) else operand (fmtOf q) x 0,
          if cfg.daz then Mca.flush (operand (fmtOf q) x 1) else operand (fmtOf q) x 1,
          if cfg.daz then Mca.flush (operand (fmtOf q) x 2) else operand (fmtOf q) x 2] := by
      split <;> simp [daz_flush]
    rw [hops] at h2 h4
    obtain ⟨c, d, e, rfl, kc, kd, ke⟩ : ∃ c d e, args = [c, d, e] ∧ Bitmask.Keeps (fmtOf q) (bitmaskPrec cfg q) _ c ∧
        Bitmask.Keeps (fmtOf q) (bitmaskPrec cfg q) _ d ∧ Bitmask.Keeps (fmtOf q) (bitmaskPrec cfg q) _ e := by
      cases h2 with
      | cons k1 h => cases h with
        | cons k2 h => cases h with
          | cons k3 h => cases h; exact ⟨_, _, _, rfl, k1, k2, k3⟩
    have he : ternaryC (fmtOf q) [c, d, e] = ffma (fmtOf q) c d e := rfl
    rw [he] at h3
    refine ⟨_, s', hwf q res h3.1, ?_, fun c => ?_⟩
    · rintro rfl fA fB fC - - -
      obtain ⟨fc, ec⟩ := bitmask_operand q cfg (ht q) _ c (operand_wf _ _ _) fA kc (fun hm => by have := h4 hm; simp only [List.cons.injEq] at this; exact this.1)
      obtain ⟨fd, ed⟩ := bitmask_operand q cfg (ht q) _ d (operand_wf _ _ _) fB kd (fun hm => by have := h4 hm; simp only [List.cons.injEq] at this; exact this.2.1)
      obtain ⟨fe, ee⟩ := bitmask_operand q cfg (ht q) _ e (operand_wf _ _ _) fC ke (fun hm => by have := h4 hm; simp only [List.cons.injEq] at this; exact this.2.2.1)
      have := bitmask_result q cfg (ht q) _ _ res (host_ffma (fmtOf q) (by cases q <;> decide) (by cases q <;> decide) c d e fc fd fe) h3
      simp only [hfl]
      exact ⟨_, _, _, ec, ed, ee, this⟩
    · simp only [h1, store]
      rfl
  · simp [Wrapper.emitted, hca] at ho

/-- The absolute error of a conversion by bitmask with changes of `δ` and numbers below `φ` flushed. -/
def bitmaskCastAbs (δ φ : ℚ) : ℚ := ((φ * (1 + δ) * (1 + unit .float) + tiny .float) * (1 + δ) + φ) * (1 + unit .float) + tiny .float

/-- **C112** Conversions of bitmask, with and without `--daz` and `--ftz`, to subnormal floats too. -/
theorem C112_cast_bitmask_partial (g : Bitmask.Gen σ) (cfg : Bitmask.Ctx) (hap : Bitmask.Applied .f64 cfg) (bs : List (Wrapper.Backend σ κ)) (ctx : Nat → κ) :
    MeetsCast (AbsCast (bitmaskCast (keepRel cfg .double) (keepRel cfg .double)) (bitmaskCastAbs (keepRel cfg .double) (flushErr .f64 (cfg.daz || cfg.ftz)))
      (below 125)) (bs ++ [bitmaskBackend g cfg]) ctx := by
  refine cast_last _ _ _ rfl (fun x _ s => ?_) bs ctx
  have wA : (operand b64 x 0).WF b64 := operand_wf _ _ _
  obtain ⟨args, z, s', h1, h2, h3, -, -⟩ := Bitmask.C24_operation g .f64 (fun l => fconv b32 b64 (fconv b64 b32 (l.headD (zeroBits false)))) cfg hap s
    [operand b64 x 0] (fun a ha => by rw [List.mem_singleton.1 ha]; exact wA) (fun l _ => fconv_wf _ _ (by decide) _)
  have hdz : ∀ a, Fp.daz b64 a = Mca.flush a := daz_flush .double
  replace h2 : List.Forall₂ (Bitmask.Keeps b64 (bitmaskPrec cfg .double)) (if cfg.daz then [operand b64 x 0].map (Fp.daz b64) else [operand b64 x 0]) args := h2
  have hops : (if cfg.daz = true then [operand b64 x 0].map (Fp.daz b64) else [operand b64 x 0]) =
      [if cfg.daz then Mca.flush (operand b64 x 0) else operand b64 x 0] := by
    split <;> simp [hdz]
  rw [hops] at h2
  obtain ⟨c, rfl, kc⟩ : ∃ c, args = [c] ∧ Bitmask.Keeps b64 (bitmaskPrec cfg .double) _ c := by
    cases h2 with
    | cons k h2 => cases h2; exact ⟨_, rfl, k⟩
  have ht : 1 ≤ bitmaskPrec cfg .double := by
    have := hap.1
    show 1 ≤ (cfg.prec .f64).toNat
    omega
  replace h3 : Bitmask.Keeps b64 (bitmaskPrec cfg .double) (fconv b32 b64 (fconv b64 b32 c)) z := h3
  refine ⟨fconv b64 b32 (if cfg.ftz then Mca.flush z else z), s', fconv_wf _ _ (by decide) _, ?_, fun cc => ?_⟩
  swap
  · show store b32 cc s (Bitmask.castOp g cfg s _) = _
    unfold Bitmask.castOp
    rw [h1, ← hdz z]
    rfl
  intro fA
  clear h1 h2 hops
  generalize operand b64 x 0 = A at *
  have hd0 : 0 < keepRel cfg .double := zpow_pos (by norm_num) _
  have hd1 : keepRel cfg .double ≤ 1 := zpow_le_one_of_nonpos₀ (by norm_num) (by omega)
  have krel : ∀ u v : Bits, Bitmask.Keeps b64 (bitmaskPrec cfg .double) u v → |v.val b64 - u.val b64| ≤ keepRel cfg .double * |u.val b64| + 0 := by
    intro u v k
    rw [add_zero]
    exact keeps_rel _ _ ht _ _ k
  generalize keepRel cfg .double = d at *
  obtain ⟨φa, φb⟩ := flushErr_le .f64 cfg.daz cfg.ftz
  have φ1 : flushErr .f64 (cfg.daz || cfg.ftz) ≤ 1 := by
    unfold flushErr
    split
    · exact zpow_le_one_of_nonpos₀ (by norm_num) (by decide)
    · norm_num
  generalize flushErr .f64 (cfg.daz || cfg.ftz) = φ at *
  refine ⟨fun _ hz => ?_, fun hz => ?_⟩
  · have kz : ∀ s y, Bitmask.Keeps b64 (bitmaskPrec cfg .double) (zeroBits s) y → y = zeroBits s := fun s y k => k.2.2.2.2 (Or.inr ⟨rfl, rfl⟩)
    rw [zero_bits b64 A hz, flush_zero] at kc
    rw [kz _ _ kc, fconv_zero b64 b32 (by decide) (by decide), fconv_zero b32 b64 (by decide) (by decide)] at h3
    rw [kz _ _ h3, flush_zero, fconv_zero b64 b32 (by decide) (by decide)]
    exact zero_fin _
  have hA : |A.val b64| < 2 ^ (125 : ℤ) := hz.1
  have u0 : (0 : ℚ) < unit .float := zpow_pos (by norm_num) _
  have t0 : (0 : ℚ) < tiny .float := zpow_pos (by norm_num) _
  have u1 : unit .float ≤ 1 / 1000 := by norm_num [unit, fmtOf, b32]
  have t1 : tiny .float ≤ 1 := by unfold tiny; exact zpow_le_one_of_nonpos₀ (by norm_num) (by decide)
  have M : (100000 : ℚ) ≤ 2 ^ (125 : ℤ) := by norm_num
  have q : (2 : ℚ) ^ (127 : ℤ) = 4 * 2 ^ (125 : ℤ) := by norm_num
  have q126 : (2 : ℚ) ^ (126 : ℤ) = 2 * 2 ^ (125 : ℤ) := by norm_num
  -- numbers whose leading bits are kept stay in their binade
  have kmag : ∀ (u v : Bits) (k : ℤ), u.WF b64 → u.Fin b64 → Bitmask.Keeps b64 (bitmaskPrec cfg .double) u v → -1022 ≤ k → |u.val b64| < 2 ^ k → |v.val b64| < 2 ^ k := by
    intro u v k wu fu hk hk2 hu
    have hv := abs_lt b64 v hk.1
    have hlo : u.exp = 0 ∨ (2 : ℚ) ^ ((u.exp : ℤ) - b64.bias) ≤ |u.val b64| := by
      by_cases h0 : u.exp = 0
      · exact Or.inl h0
      · exact Or.inr (abs_ge b64 u (by omega))
    rw [hk.2.2.1] at hv
    refine lt_of_lt_of_le hv (zpow_le_zpow_right₀ (by norm_num) ?_)
    rcases hlo with h0 | h0
    · rw [h0]
      have : (b64.bias : ℤ) = 1023 := rfl
      omega
    · have := (zpow_lt_zpow_iff_right₀ (show (1 : ℚ) < 2 by norm_num)).1 (lt_of_le_of_lt h0 hu)
      have : (b64.bias : ℤ) = 1023 := rfl
      omega
  -- the operand
  obtain ⟨w1, f1, l1, e1⟩ := flush_error .f64 cfg.daz A wA fA
  have e2 := step_err (show _ ≤ 0 * _ + φ by rw [zero_mul, zero_add]; exact le_trans e1 φa) (krel _ _ kc) hd0.le
  have fc := keeps_fin kc f1
  have cc := kmag _ c 125 w1 f1 kc (by decide) (lt_of_le_of_lt l1 hA)
  -- the conversion
  have hv := host_trunc c kc.1 fc
  obtain ⟨fv, ev⟩ := host_abs b32 (by decide) _ _ hv (by show _ < (2 : ℚ) ^ (127 : ℤ); linarith [abs_nonneg (c.val b64)])
  change |(fconv b64 b32 c).val b32 - c.val b64| ≤ unit .float * |c.val b64| + tiny .float at ev
  obtain ⟨ww, fw, vw⟩ := widen_val wider32 _ hv.wf fv
  have bv := abs_sub_abs_le_abs_sub ((fconv b64 b32 c).val b32) (c.val b64)
  have mv := mul_le_mul_of_nonneg_right u1 (abs_nonneg (c.val b64))
  have e3 := step_err e2 ev u0.le
  -- its result
  have cz := kmag _ z 126 ww fw h3 (by decide) (by rw [vw]; linarith)
  have ez := krel _ _ h3
  rw [vw] at ez
  have e4 := step_err e3 ez hd0.le
  obtain ⟨w5, f5, l5, e5⟩ := flush_error .f64 cfg.ftz z h3.1 (keeps_fin h3 fw)
  have e6 := step_err e4 (show _ ≤ 0 * _ + φ by rw [zero_mul, zero_add]; exact le_trans e5 φb) le_rfl
  obtain ⟨fy, ey⟩ := host_abs b32 (by decide) _ _ (host_trunc _ w5 f5) (by
    show _ < (2 : ℚ) ^ (127 : ℤ)
    refine lt_of_le_of_lt l5 ?_
    show |z.val b64| < _
    linarith)
  have e7 := step_err e6 (show _ ≤ unit .float * _ + tiny .float from ey) u0.le
  refine ⟨fy, le_trans e7 (le_of_eq ?_)⟩
  change _ * |A.val b64| + _ = _
  unfold bitmaskCast bitmaskCastAbs
  show _ = ((1 + d) * (1 + unit .float) * (1 + d) * (1 + unit .float) - 1) * _ + _
  ring

end Verif.Pass.Mix.Gen
