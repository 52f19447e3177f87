import Verif.Pass.ErrProps

/-!
# Property C98, continued: the errors of conversions with every backend

With `--inst-cast` the conversions of doubles to floats are made by the backends.  Each bounds their relative errors.
-/

namespace Verif.Pass
open Verif Verif.Fp

variable {P σ κ : Type}

/-- A bound on the error of conversions, for numbers in the range `S`. -/
def CastContract (η : ℚ) (S : Range) : Contract
  | .cast, x, y => (operand b64 x 0).Fin b64 → S.Ok ((operand b64 x 0).val b64) →
      y.Fin b32 ∧ |y.val b32 - (operand b64 x 0).val b64| ≤ η * |(operand b64 x 0).val b64|
  | _, _, _ => True

/-- The backends keep a contract for conversions. -/
def MeetsCast (C : Contract) (bs : List (Wrapper.Backend σ κ)) (ctx : Nat → κ) : Prop :=
  ∀ x s, ∃ y : Bits, y.WF b32 ∧ (Wrapper.scalar bs ctx .cast x s).1 = some (image b32 y) ∧ C .cast x y

/-- Contracts for the operations and for conversions together. -/
theorem meets_cast (fl : Flags) (C : Contract) (hC : ∀ x y, C .cast x y) (η : ℚ) (S : Range) (bs : List (Wrapper.Backend σ κ)) (ctx : Nat → κ)
    (h : Meets { fl with cast := false } C bs ctx) (hc : fl.cast = true → MeetsCast (CastContract η S) bs ctx) :
    Meets fl (fun o x y => C o x y ∧ CastContract η S o x y) bs ctx := by
  intro o ho x s
  rcases o with ⟨a, q⟩ | q | q | _
  · obtain ⟨y, wy, ey, cy⟩ := h (.arith a q) rfl x s
    exact ⟨y, wy, ey, cy, trivial⟩
  · obtain ⟨y, wy, ey, cy⟩ := h (.cmp q) ho x s
    exact ⟨y, wy, ey, cy, trivial⟩
  · obtain ⟨y, wy, ey, cy⟩ := h (.fma q) ho x s
    exact ⟨y, wy, ey, cy, trivial⟩
  · obtain ⟨y, wy, ey, cy⟩ := hc ho x s
    exact ⟨y, wy, ey, hC x y, cy⟩

theorem cast_last (C : Contract) (b : Wrapper.Backend σ κ) (f : List (BitVec 64) → Option (BitVec 64) → κ → σ → Option (BitVec 64) × σ)
    (hf : b .cast = some f) (h : ∀ x k s, ∃ y s', y.WF b32 ∧ C .cast x y ∧ ∀ c, f x c k s = (some (image b32 y), s'))
    (bs : List (Wrapper.Backend σ κ)) (ctx : Nat → κ) : MeetsCast C (bs ++ [b]) ctx := by
  intro x s
  rw [Wrapper.C30_last bs [] b ctx .cast x s f hf (fun c c' s => by
    obtain ⟨y, s', -, -, hs⟩ := h x (ctx bs.length) s
    rw [hs, hs]) (by simp)]
  obtain ⟨y, s', hy, hc, hs⟩ := h x (ctx bs.length) (Wrapper.scalar bs ctx .cast x s).2
  exact ⟨y, hy, by rw [hs], hc⟩

/-! ## Changes, one after the other -/

theorem two_errors {r w y d e : ℚ} (h1 : |w - r| ≤ d * |r|) (h2 : |y - w| ≤ e * |w|) (he : 0 ≤ e) :
    |y - r| ≤ ((1 + d) * (1 + e) - 1) * |r| := by
  have hw : |w| ≤ |r| * (1 + d) := by
    have := abs_sub_abs_le_abs_sub w r
    linarith
  have hyr : |y - r| ≤ |y - w| + |w - r| := abs_sub_le y w r
  have := mul_le_mul_of_nonneg_left hw he
  nlinarith

/-- A number changed by at most half is in a range if it was a binade inside. -/
theorem inner_ok {S : Range} {r w d : ℚ} (hd : d ≤ 1 / 2) (hr : S.inner.Ok r) (h : |w - r| ≤ d * |r|) : S.Ok w := by
  rcases hr with rfl | hr
  · left
    rw [abs_zero, mul_zero, sub_zero] at h
    exact abs_eq_zero.1 (le_antisymm h (abs_nonneg _))
  right
  have pr := Range.has_pos hr
  obtain ⟨r1, r2⟩ := hr
  have r1 : (2 : ℚ) ^ (S.low + 1) ≤ |r| := r1
  have r2 : |r| < (2 : ℚ) ^ (S.high - 1) := r2
  rw [zpow_add_one₀ (by norm_num)] at r1
  rw [zpow_sub_one₀ (by norm_num)] at r2
  have := mul_le_mul_of_nonneg_right hd pr.le
  have e1 := abs_sub_abs_le_abs_sub w r
  have e2 := abs_sub_abs_le_abs_sub r w
  rw [abs_sub_comm] at e2
  exact ⟨by linarith, by linarith⟩

theorem ok_mono {S T : Range} (h : T.low ≤ S.low ∧ S.high ≤ T.high) {x : ℚ} (hx : S.Ok x) : T.Ok x := by
  rcases hx with hx | hx
  · exact Or.inl hx
  · exact Or.inr ⟨le_trans (zpow_le_zpow_right₀ (by norm_num) h.1) hx.1, lt_of_lt_of_le hx.2 (zpow_le_zpow_right₀ (by norm_num) h.2)⟩

/-- The rounding unit of a format. -/
def roundUnit (F : Fmt) : ℚ := 2 ^ (-(F.mw : ℤ) - 1)

theorem roundUnit_pos (F : Fmt) : 0 < roundUnit F := zpow_pos (by norm_num) _

/-- A conversion to a format, of a number in its range. -/
theorem conv_close (F G : Fmt) (hG : 2 ≤ G.ew) (x : Bits) (fx : x.Fin F) (hx : (normal G).Ok (x.val F)) :
    (fconv F G x).WF G ∧ (fconv F G x).Fin G ∧ |(fconv F G x).val G - x.val F| ≤ roundUnit G * |x.val F| := by
  have hm : |x.val F| ≤ maxVal G := by
    refine le_trans ?_ (le_maxVal G)
    rcases hx with hx | hx
    · rw [hx, abs_zero]; positivity
    · exact hx.2.le
  obtain ⟨c1, c2, -, c4⟩ := fconv_round F G hG x fx hm
  refine ⟨c1, c2, ?_⟩
  rcases hx with hx | hx
  · have := c4 (zeroBits false) ⟨by simp [zeroBits], by simp [zeroBits]⟩
    rw [Vprec.val_zero, hx] at this
    rw [hx, abs_zero, mul_zero]
    simpa using this
  · rw [mul_comm]
    exact near_rel G hG _ _ c4 hx.1 hx.2

theorem wider32_128 : Wider b32 b128 16345 := ⟨by decide, by decide, by decide, by decide, by decide⟩

theorem widen_val {F G : Fmt} {D : Nat} (h : Wider F G D) (x : Bits) (hx : x.WF F) (fx : x.Fin F) :
    (fconv F G x).WF G ∧ (fconv F G x).Fin G ∧ (fconv F G x).val G = x.val F := by
  obtain ⟨w1, w2, w3, w4⟩ := widen_spec h x hx (fin_lt hx fx)
  refine ⟨w2, by unfold Bits.Fin; omega, ?_⟩
  have hu : F.uexp = G.uexp + D := by have := h.unit; omega
  rw [val_eq_mag, val_eq_mag, w1, w4, hu, zpow_add₀ (by norm_num), zpow_natCast]
  push_cast
  ring

/-! ## The machine -/

theorem machine_cast (x : List (BitVec 64)) : CastContract (roundUnit b32) (normal b32) .cast x (fconv b64 b32 (operand b64 x 0)) :=
  fun fA hA => (conv_close b64 b32 (by decide) _ fA hA).2

/-- **C98** Conversions of the IEEE backend: half a unit in the last place. -/
theorem C98_cast_ieee (count : Ieee.Op → σ → σ) (bs : List (Wrapper.Backend σ κ)) (ctx : Nat → κ) :
    MeetsCast (CastContract (roundUnit b32) (normal b32)) (bs ++ [ieeeBackend count]) ctx :=
  cast_last _ _ _ rfl (fun x _ _ => ⟨_, _, fconv_wf _ _ (by decide) _, machine_cast x, fun _ => rfl⟩) bs ctx

/-- **C98** Conversions of the cancellation backend: half a unit in the last place. -/
theorem C98_cast_cancellation (g : Mca.Gen σ) (cfg : Cancel.Ctx) (bs : List (Wrapper.Backend σ κ)) (ctx : Nat → κ) :
    MeetsCast (CastContract (roundUnit b32) (normal b32)) (bs ++ [cancelBackend g cfg]) ctx :=
  cast_last _ _ _ rfl (fun x _ _ => ⟨_, _, fconv_wf _ _ (by decide) _, machine_cast x, fun _ => rfl⟩) bs ctx

/-! ## Monte Carlo arithmetic -/

/-- The error of a conversion whose operand is changed by `d`, and whose result is changed by `e` and rounded to double and to single precision. -/
def mcaCast (d e : ℚ) : ℚ := (1 + d) * (1 + roundUnit b32) * (1 + e) * (1 + roundUnit b64) * (1 + roundUnit b32) - 1

/-- The numbers of single precision left when an operation changes them four times. -/
def mcaCastRange : Range := (normal b32).inner.inner.inner.inner

/-- What `McaContract` says of conversions when subnormal numbers are not flushed. -/
theorem mca_unfold (cfg : Mca.Ctx) (hd : cfg.daz = false) (hf : cfg.ftz = false) (N : Mca.Ty → Bits → Bits → Prop) (x : List (BitVec 64)) (y : Bits)
    (h : McaContract cfg N .cast x y) : ∃ c z, (if cfg.mode = .pb ∨ cfg.mode = .mca then N .f64 (fconv b64 b128 (operand b64 x 0)) c
        else c = fconv b64 b128 (operand b64 x 0)) ∧
      (if cfg.mode = .rr ∨ cfg.mode = .mca then N .f64 (fconv b32 b128 (fconv b128 b32 c)) z else z = fconv b32 b128 (fconv b128 b32 c)) ∧
      y = fconv b64 b32 (fconv b128 b64 z) := by
  obtain ⟨args, z, h1, h2, h3⟩ := h
  simp only [operandsOf, hd, hf, Bool.false_eq_true, if_false, List.map_cons, List.map_nil, workTy] at h1 h2 h3
  by_cases hm : cfg.mode = .pb ∨ cfg.mode = .mca
  · rw [if_pos hm] at h1
    cases h1 with
    | cons n1 h1 =>
      cases h1
      exact ⟨_, z, by rw [if_pos hm]; exact n1, h2, h3⟩
  · rw [if_neg hm] at h1
    subst h1
    exact ⟨_, z, by rw [if_neg hm]; rfl, h2, h3⟩

theorem mca_cast (cfg : Mca.Ctx) (hd : cfg.daz = false) (hf : cfg.ftz = false) (δ : ℚ) (hδ : 0 ≤ δ ∧ δ ≤ 1 / 2) (N : Mca.Ty → Bits → Bits → Prop)
    (hN : Relative .f64 δ (N .f64)) (x : List (BitVec 64)) (y : Bits) (h : McaContract cfg N .cast x y) :
    CastContract (mcaCast (if cfg.mode = .pb ∨ cfg.mode = .mca then δ else 0) (if cfg.mode = .rr ∨ cfg.mode = .mca then δ else 0)) mcaCastRange
      .cast x y := by
  intro fA hA
  obtain ⟨c, z, h1, h2, h3⟩ := mca_unfold cfg hd hf N x y h
  have wA : (operand b64 x 0).WF b64 := operand_wf _ _ _
  generalize operand b64 x 0 = A at *
  have ed : ∀ q : Prop, ∀ [Decidable q], 0 ≤ (if q then δ else 0) ∧ (if q then δ else 0) ≤ 1 / 2 := by
    intro q _
    split
    · exact hδ
    · norm_num
  have ein := ed (cfg.mode = .pb ∨ cfg.mode = .mca)
  have eout := ed (cfg.mode = .rr ∨ cfg.mode = .mca)
  have u32 : roundUnit b32 ≤ 1 / 2 := by norm_num [roundUnit, b32]
  have u64 : roundUnit b64 ≤ 1 / 2 := by norm_num [roundUnit, b64]
  -- the operand
  obtain ⟨wc, fc, ec⟩ : c.WF b128 ∧ c.Fin b128 ∧
      |c.val b128 - A.val b64| ≤ (if cfg.mode = .pb ∨ cfg.mode = .mca then δ else 0) * |A.val b64| := by
    by_cases hm : cfg.mode = .pb ∨ cfg.mode = .mca
    · rw [if_pos hm] at h1 ⊢
      exact operand_relative .f64 _ _ hN A _ wA fA h1
    · rw [if_neg hm] at h1 ⊢
      exact operand_relative .f64 0 _ (eq_relative .f64) A _ wA fA h1
  have okc := inner_ok ein.2 hA ec
  -- the conversion
  obtain ⟨wv, fv, ev⟩ := conv_close b128 b32 (by decide) c fc (ok_mono (by decide) okc)
  have okv := inner_ok u32 okc ev
  obtain ⟨ww, fw, vw⟩ := widen_val wider32_128 _ wv fv
  have e2 := two_errors ec ev (roundUnit_pos _).le
  -- its result
  have key : z.Fin b128 ∧ |z.val b128 - (fconv b128 b32 c).val b32| ≤
      (if cfg.mode = .rr ∨ cfg.mode = .mca then δ else 0) * |(fconv b128 b32 c).val b32| := by
    rw [← vw]
    by_cases hm : cfg.mode = .rr ∨ cfg.mode = .mca
    · rw [if_pos hm] at h2 ⊢
      rw [← vw] at okv
      rcases okv with h0 | hk
      · have hz : (fconv b32 b128 (fconv b128 b32 c)).isZero := by
          by_contra hc
          have := val_ge b128 _ hc
          rw [h0, abs_zero] at this
          have := zpow_pos (show (0 : ℚ) < 2 by norm_num) b128.uexp
          linarith
        rw [hN.special _ _ (.inl hz) h2]
        exact ⟨fw, by rw [sub_self, abs_zero]; exact mul_nonneg hδ.1 (abs_nonneg _)⟩
      · have lo : wideLow .f64 ≤ (normal b32).inner.inner.low := by decide
        have hi : (normal b32).inner.inner.high ≤ (Mca.Ty.f64.wide.bias : ℤ) - 1 := by decide
        exact hN.near _ _ ww fw h2 (le_trans (zpow_le_zpow_right₀ (by norm_num) lo) hk.1)
          (lt_of_lt_of_le hk.2 (zpow_le_zpow_right₀ (by norm_num) hi))
    · rw [if_neg hm] at h2 ⊢
      rw [h2]
      exact ⟨fw, by simp⟩
  obtain ⟨fz, ez⟩ := key
  have okz := inner_ok eout.2 okv ez
  have e3 := two_errors e2 ez eout.1
  -- the two roundings
  obtain ⟨-, ft, et⟩ := conv_close b128 b64 (by decide) z fz (ok_mono (by decide) okz)
  have okt := inner_ok u64 okz et
  have e4 := two_errors e3 et (roundUnit_pos _).le
  obtain ⟨-, fy, ey⟩ := conv_close b64 b32 (by decide) _ ft okt
  have e5 := two_errors e4 ey (roundUnit_pos _).le
  rw [h3]
  refine ⟨fy, le_trans e5 (le_of_eq ?_)⟩
  unfold mcaCast
  ring

/-- A backend that keeps the contract of MCA keeps that of conversions. -/
theorem Meets.cast {fl : Flags} (hc : fl.cast = true) {C : Contract} {bs : List (Wrapper.Backend σ κ)} {ctx : Nat → κ} (h : Meets fl C bs ctx) :
    MeetsCast C bs ctx := fun x s => h .cast hc x s

/-- **C98** Conversions of integer MCA at precision `t` for doubles. -/
theorem C98_cast_int_partial (g : Mca.Gen σ) (cfg : Mca.Ctx) (hd : cfg.daz = false) (hf : cfg.ftz = false) (t : Mca.Ty → Nat)
    (hp : ∀ T, cfg.prec T = t T) (ht : ∀ T, 2 ≤ t T ∧ t T ≤ T.wide.mw) (bs : List (Wrapper.Backend σ κ)) (ctx : Nat → κ) :
    MeetsCast (CastContract (mcaCast (if cfg.mode = .pb ∨ cfg.mode = .mca then 2 ^ (1 - (t .f64 : ℤ)) else 0)
      (if cfg.mode = .rr ∨ cfg.mode = .mca then 2 ^ (1 - (t .f64 : ℤ)) else 0)) mcaCastRange) (bs ++ [mcaIntBackend .wrap g cfg]) ctx := by
  intro x s
  obtain ⟨y, wy, ey, cy⟩ := (C96_int_partial g cfg t hp (fun T => ⟨by have := (ht T).1; omega, (ht T).2⟩) ⟨false, false, true⟩ rfl bs ctx).cast rfl x s
  exact ⟨y, wy, ey, mca_cast cfg hd hf _ ⟨(zpow_pos (by norm_num) _).le, pow_half _ (ht .f64).1⟩ _ (int_relative _ .f64 (t .f64)) x y cy⟩

/-- **C98** Conversions of the quad backend at precision `t` for doubles. -/
theorem C98_cast_quad_partial (g : Mca.Gen σ) (hg : ∀ s, Mca.drawn (g.next s).1 ≠ 2 ^ 51) (cfg : Mca.Ctx) (hr : cfg.relErr = true)
    (hb : cfg.absErr = false) (hd : cfg.daz = false) (hf : cfg.ftz = false) (t : Mca.Ty → Nat)
    (hp : ∀ T, cfg.prec T = t T) (ht : ∀ T, 2 ≤ t T ∧ t T ≤ T.wide.mw + 1) (bs : List (Wrapper.Backend σ κ)) (ctx : Nat → κ) :
    MeetsCast (CastContract (mcaCast (if cfg.mode = .pb ∨ cfg.mode = .mca then 2 ^ (-(t .f64 : ℤ)) + 2 ^ (-112 : ℤ) else 0)
      (if cfg.mode = .rr ∨ cfg.mode = .mca then 2 ^ (-(t .f64 : ℤ)) + 2 ^ (-112 : ℤ) else 0)) mcaCastRange)
      (bs ++ [mcaBackend (Mca.quadPerturb g) g cfg]) ctx := by
  intro x s
  obtain ⟨y, wy, ey, cy⟩ := (C96_quad_partial g hg cfg hr hb t hp (fun T => by have := (ht T).1; omega) ⟨false, false, true⟩ rfl bs ctx).cast rfl x s
  refine ⟨y, wy, ey, mca_cast cfg hd hf _ ⟨(add_pos (zpow_pos (by norm_num) _) (zpow_pos (by norm_num) _)).le, ?_⟩ _
    (quad_relative _ .f64 (t .f64) (ht .f64).2) x y cy⟩
  have h1 : (2 : ℚ) ^ (-(t .f64 : ℤ)) ≤ 2 ^ (-2 : ℤ) := zpow_le_zpow_right₀ (by norm_num) (by have := (ht .f64).1; omega)
  have h2 : (2 : ℚ) ^ (-(b128.mw : ℤ)) ≤ 2 ^ (-2 : ℤ) := zpow_le_zpow_right₀ (by norm_num) (by decide)
  show (2 : ℚ) ^ (-(t .f64 : ℤ)) + 2 ^ (-(b128.mw : ℤ)) ≤ 1 / 2
  norm_num at h1 h2 ⊢
  linarith

/-- 0.1 converted by integer MCA at the default precisions, in any mode, behind any backends: within `2^-26`. -/
example (g : Mca.Gen σ) (mode : Mca.Mode) (bs : List (Wrapper.Backend σ κ)) (ctx : Nat → κ) (s : σ) :
    ∃ y : Bits, (Wrapper.scalar (bs ++ [mcaIntBackend .wrap g { Mca.init with mode := mode, prec32 := 24, prec64 := 53 }]) ctx .cast [0x3fb999999999999a#64] s).1 =
      some (image b32 y) ∧ y.Fin b32 ∧ |y.val b32 - 1 / 10| ≤ 1 / 2 ^ 26 := by
  obtain ⟨y, -, ey, cy⟩ := C98_cast_int_partial g { Mca.init with mode := mode, prec32 := 24, prec64 := 53 } rfl rfl (fun | .f32 => 24 | .f64 => 53)
    (fun T => by cases T <;> rfl) (fun T => by cases T <;> decide) bs ctx [0x3fb999999999999a#64] s
  have ho : operand b64 [0x3fb999999999999a#64] 0 = ⟨false, 1019, 2702159776422298⟩ := by decide +kernel
  have hv : Bits.val b64 ⟨false, 1019, 2702159776422298⟩ = 3602879701896397 / 2 ^ 55 := by norm_num [Bits.val, Bits.sig, Bits.lsb, sgn, b64, Fmt.bias]
  obtain ⟨fy, hy⟩ := cy (by rw [ho]; decide) (by
    rw [ho, hv]
    exact Or.inr ⟨show (2 : ℚ) ^ mcaCastRange.low ≤ _ by decide +kernel, show _ < (2 : ℚ) ^ mcaCastRange.high by decide +kernel⟩)
  rw [ho, hv] at hy
  refine ⟨y, ey, fy, ?_⟩
  have hb : mcaCast (if mode = .pb ∨ mode = .mca then 2 ^ (1 - (53 : ℤ)) else 0) (if mode = .rr ∨ mode = .mca then 2 ^ (1 - (53 : ℤ)) else 0) ≤ 1 / 2 ^ 23 + 1 / 2 ^ 40 := by
    cases mode <;> decide +kernel
  replace hy := le_trans hy (mul_le_mul_of_nonneg_right hb (abs_nonneg _))
  have h1 := abs_sub_le (y.val b32) (3602879701896397 / 2 ^ 55) (1 / 10)
  norm_num at hy h1 ⊢
  linarith

/-! ## VPREC -/

/-- The exponent range and the precision VPREC rounds conversions to: those for floats, or in ib mode those for doubles if they are less than a float has. -/
def vprecCastSize (cfg : Vprec.Config.Cfg) : Nat × Nat :=
  if cfg.mode = .ib then ((min cfg.range64 8).toNat, (min cfg.prec64 23).toNat) else vprecSize cfg .float

/-- **C98** Conversions of VPREC, in any mode and with any flushing: one rounding (C50), `2^-(t+1)`. -/
theorem C98_cast_vprec_partial (sem : ShiftSem) (cfg : Vprec.Config.Cfg) (hc : Vprec.Config.InLimits cfg) (hrel : cfg.absErr = false)
    (bs : List (Wrapper.Backend σ κ)) (ctx : Nat → κ) :
    MeetsCast (CastContract (2 ^ (-((vprecCastSize cfg).2 : ℤ) - 1)) (formatRange (vprecCastSize cfg).1)) (bs ++ [vprecBackend sem cfg]) ctx := by
  have hl := hc
  obtain ⟨h1, h2, h3, h4⟩ := hl
  have e2 : b64.ew = 11 := rfl
  have e4 : b64.mw = 52 := rfl
  refine cast_last _ _ _ rfl (fun x _ s => ?_) bs ctx
  have wA : (operand b64 x 0).WF b64 := operand_wf _ _ _
  by_cases hm : cfg.mode = .ieee
  · refine ⟨fconv b64 b32 (operand b64 x 0), s, fconv_wf _ _ (by decide) _, ?_, fun c => ?_⟩
    · intro fA hA
      rw [show vprecCastSize cfg = vprecSize cfg .float by unfold vprecCastSize; rw [hm]; rfl] at hA ⊢
      simp only [vprecSize] at hA ⊢
      obtain ⟨r, hr⟩ : ∃ r : ℕ, cfg.range32 = r := ⟨cfg.range32.toNat, by omega⟩
      obtain ⟨t, ht⟩ : ∃ t : ℕ, cfg.prec32 = t := ⟨cfg.prec32.toNat, by omega⟩
      rw [hr, Int.toNat_natCast] at hA
      rw [ht, Int.toNat_natCast]
      have hem : Vprec.Spec.emax r ≤ 127 := by
        unfold Vprec.Spec.emax
        have : (2 : ℤ) ^ (r - 1) ≤ 2 ^ 7 := pow_le_pow_right₀ (by norm_num) (by omega)
        norm_num at this
        omega
      obtain ⟨-, f1, f2⟩ := conv_close b64 b32 (by decide) (operand b64 x 0) fA (ok_mono (S := formatRange r) (by
        show 1 - (127 : ℤ) ≤ Vprec.Spec.emin r ∧ Vprec.Spec.emax r ≤ 127
        unfold Vprec.Spec.emin
        omega) hA)
      refine ⟨f1, le_trans f2 (mul_le_mul_of_nonneg_right ?_ (abs_nonneg _))⟩
      exact zpow_le_zpow_right₀ (by norm_num) (by show -(23 : ℤ) - 1 ≤ _; omega)
    · show store b32 c s (Vprec.Ops.castOp sem cfg _ >>= fun r => .ok (r, s)) = _
      unfold Vprec.Ops.castOp
      rw [hm]
      rfl
  · obtain ⟨r, t, inp, hfmt⟩ : ∃ r t : Int, ∃ inp : Bool, (r, t, inp) = if cfg.mode = .ib then (min cfg.range64 8, min cfg.prec64 23, true)
        else (cfg.range32, cfg.prec32, false) := ⟨_, _, _, rfl⟩
    have hsz : vprecCastSize cfg = (r.toNat, t.toNat) := by
      unfold vprecCastSize vprecSize
      split_ifs at hfmt ⊢ <;> simp only [Prod.mk.injEq] at hfmt <;> rw [hfmt.1, hfmt.2.1]
    have hlim : 1 ≤ t ∧ t ≤ 23 ∧ 2 ≤ r ∧ r ≤ 8 := by
      split_ifs at hfmt <;> simp only [Prod.mk.injEq] at hfmt <;> omega
    obtain ⟨y0, hy0, wy0⟩ := Vprec.C03_result_defined sem b64 64 (Or.inr ⟨rfl, rfl⟩) (operand b64 x 0) inp cfg.ctx r.toNat t.toNat hrel (by omega)
      (by omega) (by omega) (by omega) (Or.inl (by omega)) wA
    have hy0' : Vprec.round64 sem (operand b64 x 0) inp cfg.ctx r.toNat t = .ok y0 := by
      rw [← hy0, Int.toNat_of_nonneg (by omega)]
    have hcast : Vprec.Ops.castOp sem cfg (operand b64 x 0) = .ok (fconv b64 b32 y0) := by
      unfold Vprec.Ops.castOp
      cases hmode : cfg.mode with
      | ieee => exact absurd hmode hm
      | ob =>
        rw [hmode] at hfmt
        simp only [reduceCtorEq, if_false, Prod.mk.injEq] at hfmt
        obtain ⟨e1, e2, e3⟩ := hfmt
        simp only [← e1, ← e2]
        rw [← e3, hy0']
        rfl
      | full =>
        rw [hmode] at hfmt
        simp only [reduceCtorEq, if_false, Prod.mk.injEq] at hfmt
        obtain ⟨e1, e2, e3⟩ := hfmt
        simp only [← e1, ← e2]
        rw [← e3, hy0']
        rfl
      | ib =>
        rw [hmode] at hfmt
        simp only [if_true, Prod.mk.injEq] at hfmt
        obtain ⟨e1, e2, e3⟩ := hfmt
        simp only [← e1, ← e2]
        rw [← e3, hy0']
        rfl
    refine ⟨fconv b64 b32 y0, s, fconv_wf _ _ (by decide) _, ?_, fun c => ?_⟩
    · intro fA hA
      rw [hsz] at hA ⊢
      obtain ⟨f1, f2⟩ := vprec_near sem b64 64 (Or.inr ⟨rfl, rfl⟩) (operand b64 x 0) y0 inp cfg.ctx r.toNat t.toNat hrel (by omega) (by omega)
        (by omega) (by omega) (Or.inl (by omega)) wA fA hy0 hA
      obtain ⟨y', b, k1, k2, k3, -, k4, -⟩ := Vprec.Ops.C50_cast_single_rounding sem cfg hc hrel hm (operand b64 x 0) wA fA r t inp hfmt
      rw [hy0'] at k1
      obtain rfl := Outcome.ok.inj k1
      rw [hcast] at k2
      obtain rfl := Outcome.ok.inj k2
      obtain ⟨g1, g2⟩ := k4 f1
      exact ⟨g1, by rw [g2]; exact f2⟩
    · show store b32 c s (Vprec.Ops.castOp sem cfg _ >>= fun r => .ok (r, s)) = _
      rw [hcast]
      rfl

/-- The precision for doubles holds in the mode ib, and that for floats in the mode ob. -/
example : vprecCastSize { Vprec.Config.init with mode := .ib, prec64 := 10 } = (8, 10) ∧ vprecCastSize { Vprec.Config.init with mode := .ob, prec32 := 5 } = (8, 5) := by
  decide

/-! ## Bitmask -/

/-- Numbers whose leading bits are kept stay in their binades. -/
theorem keeps_ok {S : Range} (t : Nat) (hS : 1 - (b64.bias : ℤ) ≤ S.low) (x y : Bits) (hx : x.WF b64) (h : Bitmask.Keeps b64 t x y)
    (hk : S.Ok (x.val b64)) : S.Ok (y.val b64) := by
  rcases hk with h0 | hk
  · left
    have hz : x.isZero := (mag_eq_zero b64 x).1 ((Vprec.val_eq_zero b64 x).1 h0)
    rw [h.2.2.2.2 (Or.inr hz), h0]
  right
  obtain ⟨e, e1, e2, e3, e4⟩ := exponent _ _ _ hk.1 hk.2
  have n1 := normal_of_val b64 x hx e e1 (by omega)
  have he := Mca.exp_of_val b64 x hx n1 e e1 e2
  have n2 : 1 ≤ y.exp := by rw [h.2.2.1]; exact n1
  have hs := sig_lt b64 y h.1
  have hs2 : 2 ^ b64.mw ≤ y.sig b64 := by unfold Bits.sig; rw [if_neg (by omega)]; omega
  have hl : y.lsb b64 = e - b64.mw := by unfold Bits.lsb; rw [max_eq_left n2, h.2.2.1]; omega
  have hu : (0 : ℚ) < 2 ^ y.lsb b64 := zpow_pos (by norm_num) _
  have hb : (2 : ℚ) ^ e ≤ |y.val b64| ∧ |y.val b64| < 2 ^ (e + 1) := by
    have a1 : (2 : ℚ) ^ e = 2 ^ b64.mw * 2 ^ y.lsb b64 := by rw [← zpow_natCast, ← zpow_add₀ (by norm_num), hl]; congr 1; ring
    have a2 : (2 : ℚ) ^ (e + 1) = 2 ^ (b64.mw + 1) * 2 ^ y.lsb b64 := by
      rw [← zpow_natCast, ← zpow_add₀ (by norm_num), hl]; congr 1; push_cast; ring
    rw [abs_val, a1, a2]
    exact ⟨mul_le_mul_of_nonneg_right (by exact_mod_cast hs2) hu.le, mul_lt_mul_of_pos_right (by exact_mod_cast hs) hu⟩
  exact ⟨le_trans (zpow_le_zpow_right₀ (by norm_num) e3) hb.1, lt_of_lt_of_le hb.2 (zpow_le_zpow_right₀ (by norm_num) e4)⟩

/-- The error of a conversion whose operand is changed by `d` and whose result is changed by `e` and rounded again. -/
def bitmaskCast (d e : ℚ) : ℚ := (1 + d) * (1 + roundUnit b32) * (1 + e) * (1 + roundUnit b32) - 1

/-- **C98** Conversions of bitmask at precision `t` for doubles: `2^(1-t)` on the operand in the modes ib and full, on the result in the modes ob and
full, and a rounding after each; the bits of the float that the precision should keep may change (C24). -/
theorem C98_cast_bitmask_partial (g : Bitmask.Gen σ) (cfg : Bitmask.Ctx) (hap : Bitmask.Applied .f64 cfg) (hd : cfg.daz = false) (hf : cfg.ftz = false)
    (bs : List (Wrapper.Backend σ κ)) (ctx : Nat → κ) :
    MeetsCast (CastContract (bitmaskCast (if cfg.mode = .ib ∨ cfg.mode = .full then 2 ^ (1 - ((cfg.prec .f64).toNat : ℤ)) else 0)
      (if cfg.mode = .ob ∨ cfg.mode = .full then 2 ^ (1 - ((cfg.prec .f64).toNat : ℤ)) else 0)) (normal b32).inner) (bs ++ [bitmaskBackend g cfg]) ctx := by
  refine cast_last _ _ _ rfl (fun x _ s => ?_) bs ctx
  have wA : (operand b64 x 0).WF b64 := operand_wf _ _ _
  obtain ⟨args, z, s', h1, h2, h3, h4, h5⟩ := Bitmask.C24_operation g .f64 (fun l => fconv b32 b64 (fconv b64 b32 (l.headD (zeroBits false)))) cfg hap s
    [operand b64 x 0] (fun a ha => by rw [List.mem_singleton.1 ha]; exact wA) (fun l _ => fconv_wf _ _ (by decide) _)
  simp only [hd, hf, Bool.false_eq_true, if_false] at h1 h2 h4
  obtain ⟨c, rfl, kc⟩ : ∃ c, args = [c] ∧ Bitmask.Keeps b64 (cfg.prec .f64).toNat (operand b64 x 0) c := by
    cases h2 with
    | cons k h2 => cases h2; exact ⟨_, rfl, k⟩
  have ht : 1 ≤ (cfg.prec .f64).toNat := by have := hap.1; omega
  replace h3 : Bitmask.Keeps b64 (cfg.prec .f64).toNat (fconv b32 b64 (fconv b64 b32 c)) z := h3
  replace h5 : cfg.mode = .ieee ∨ cfg.mode = .ib → z = fconv b32 b64 (fconv b64 b32 c) := h5
  refine ⟨fconv b64 b32 z, s', fconv_wf _ _ (by decide) _, ?_, fun cc => ?_⟩
  swap
  · show store b32 cc s (Bitmask.castOp g cfg s _) = _
    unfold Bitmask.castOp
    rw [h1]
    rfl
  intro fA hA
  generalize operand b64 x 0 = A at *
  generalize (cfg.prec .f64).toNat = t at *
  have fin : ∀ u v : Bits, Bitmask.Keeps b64 t u v → u.Fin b64 → v.Fin b64 := by
    intro u v k hu
    unfold Bits.Fin at hu ⊢
    rw [k.2.2.1]; exact hu
  have u32 : roundUnit b32 ≤ 1 / 2 := by norm_num [roundUnit, b32]
  have d0 : ∀ q : Prop, ∀ [Decidable q], (0 : ℚ) ≤ if q then 2 ^ (1 - (t : ℤ)) else 0 := by
    intro q _
    split
    · exact (zpow_pos (by norm_num) _).le
    · exact le_rfl
  have ec : |c.val b64 - A.val b64| ≤ (if cfg.mode = .ib ∨ cfg.mode = .full then 2 ^ (1 - (t : ℤ)) else 0) * |A.val b64| := by
    split_ifs with hm
    · exact keeps_rel _ _ ht _ _ kc
    · have : cfg.mode = .ieee ∨ cfg.mode = .ob := by cases h : cfg.mode <;> simp [h] at hm ⊢
      have := h4 this
      rw [List.cons.injEq] at this
      rw [this.1, sub_self, abs_zero, zero_mul]
  have okc : (normal b32).inner.Ok (c.val b64) := keeps_ok t (by decide) A c wA kc hA
  obtain ⟨wv, fv, ev⟩ := conv_close b64 b32 (by decide) c (fin _ _ kc fA) (ok_mono (by decide) okc)
  have okv := inner_ok u32 okc ev
  obtain ⟨ww, fw, vw⟩ := widen_val wider32 _ wv fv
  have e2 := two_errors ec ev (roundUnit_pos _).le
  have okz : (normal b32).Ok (z.val b64) := keeps_ok t (by decide) _ z ww h3 (by rw [vw]; exact okv)
  have ez : |z.val b64 - (fconv b64 b32 c).val b32| ≤
      (if cfg.mode = .ob ∨ cfg.mode = .full then 2 ^ (1 - (t : ℤ)) else 0) * |(fconv b64 b32 c).val b32| := by
    rw [← vw]
    split_ifs with hm
    · exact keeps_rel _ _ ht _ _ h3
    · have : cfg.mode = .ieee ∨ cfg.mode = .ib := by cases h : cfg.mode <;> simp [h] at hm ⊢
      rw [h5 this, sub_self, abs_zero, zero_mul]
  have e3 := two_errors e2 ez (d0 _)
  obtain ⟨-, fy, ey⟩ := conv_close b64 b32 (by decide) z (fin _ _ h3 fw) okz
  have e4 := two_errors e3 ey (roundUnit_pos _).le
  refine ⟨fy, le_trans e4 (le_of_eq ?_)⟩
  unfold bitmaskCast
  ring

end Verif.Pass
