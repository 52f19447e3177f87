import Verif.Pass.AbsBackends
import Verif.Pass.McaRelProps

/-!
# Property C112: MCA with absolute errors and with subnormals flushed

The errors of operations with the MCA backends in all error modes, with and without `--daz` and `--ftz`.
-/

namespace Verif.Pass.Mix.Gen
open Verif Verif.Fp

variable {K σ κ : Type}

/-- The wide number `x'` is `x` changed by `δ` relatively and by `ε` at most, if `x` is not too large and, where the noise depends on the
exponent, not too small; a zero is not changed. -/
structure Changed (T : Mca.Ty) (δ ε : ℚ) (low : Bool) (x x' : Bits) : Prop where
  wf : x'.WF T.wide
  special : Mca.Special T.wide x → x' = x
  near : x.Fin T.wide → (low = true → (2 : ℚ) ^ wideLow T ≤ |x.val T.wide|) → |x.val T.wide| < 2 ^ ((T.wide.bias : ℤ) - 1) →
    x'.Fin T.wide ∧ |x'.val T.wide - x.val T.wide| ≤ δ * |x.val T.wide| + ε

theorem Changed.refl {T : Mca.Ty} {δ ε : ℚ} (hδ : 0 ≤ δ) (hε : 0 ≤ ε) (low : Bool) {x : Bits} (hx : x.WF T.wide) : Changed T δ ε low x x where
  wf := hx
  special _ := rfl
  near hf _ _ := ⟨hf, by
    rw [sub_self, abs_zero]
    exact add_nonneg (mul_nonneg hδ (abs_nonneg _)) hε⟩

/-! ## The perturbations -/

/-- The relative error of a perturbation of the quad backend, at precision `t`: that of the draw and of the sum. -/
def drawRel (T : Mca.Ty) (c : Mca.Ctx) (t : Nat) : ℚ := if c.relErr then 2 ^ (-(t : ℤ)) + 2 ^ (-(T.wide.mw : ℤ)) else 0

/-- The same with the sum of the absolute noise. -/
def noiseRel (T : Mca.Ty) (c : Mca.Ctx) (t : Nat) : ℚ :=
  if c.absErr then (1 + 2 ^ (-(T.wide.mw : ℤ) - 1)) * (1 + drawRel T c t) - 1 else drawRel T c t

/-- The absolute error. -/
def noiseAbs (c : Mca.Ctx) : ℚ := if c.absErr then 2 ^ c.absErrExp else 0

/-- The sum of a wide number and the noise. -/
theorem add_noise (T : Mca.Ty) (e : ℤ) (w : BitVec 64) (hw : Mca.drawn w ≠ 2 ^ 51) (x : Bits) (hf : x.Fin T.wide)
    (h1 : 53 - (T.wide.bias : ℤ) ≤ e) (h2 : e ≤ T.wide.bias - 2) (hs : |x.val T.wide| ≤ 2 ^ ((T.wide.bias : ℤ) - 1) * (3 / 2)) :
    (fadd T.wide x (Mca.quadNoise T.wide e w)).Fin T.wide ∧
      |(fadd T.wide x (Mca.quadNoise T.wide e w)).val T.wide - x.val T.wide| ≤ 2 ^ (-(T.wide.mw : ℤ) - 1) * |x.val T.wide| + 2 ^ e := by
  obtain ⟨q1, q2, -, q4⟩ := Mca.C21_noise_partial T.wide (Mca.wide_ty T) e w hw h1 (by omega)
  have host := Vprec.host_fadd T.wide (wide_ew T) x _ hf q2
  generalize Mca.quadNoise T.wide e w = n at *
  have e1 : (2 : ℚ) ^ (e - 1) = 2 ^ e / 2 := by rw [zpow_sub₀ (by norm_num), zpow_one]
  have e2 : (2 : ℚ) ^ (T.wide.bias : ℤ) = 2 ^ ((T.wide.bias : ℤ) - 1) * 2 := by
    rw [zpow_sub₀ (by norm_num), zpow_one]; ring
  have e3 : (2 : ℚ) ^ ((T.wide.bias : ℤ) - 1) = 2 ^ ((T.wide.bias : ℤ) - 2) * 2 := by
    rw [show (T.wide.bias : ℤ) - 1 = T.wide.bias - 2 + 1 by ring, zpow_add₀ (by norm_num), zpow_one]
  have p0 : (0 : ℚ) < 2 ^ e := zpow_pos (by norm_num) _
  have he : (2 : ℚ) ^ e ≤ 2 ^ ((T.wide.bias : ℤ) - 2) := zpow_le_zpow_right₀ (by norm_num) h2
  have hsum : |x.val T.wide + n.val T.wide| ≤ |x.val T.wide| + 2 ^ e / 2 := le_trans (abs_add_le _ _) (by linarith)
  obtain ⟨c1, c2⟩ := host_abs T.wide (wide_ew T) _ _ host (by linarith)
  refine ⟨c1, ?_⟩
  have u0 : (0 : ℚ) ≤ 2 ^ (-(T.wide.mw : ℤ) - 1) := (zpow_pos (by norm_num) _).le
  have u1 : (2 : ℚ) ^ (-(T.wide.mw : ℤ) - 1) ≤ 1 / 4 := by cases T <;> decide +kernel
  have t1 : (2 : ℚ) ^ (T.wide.uexp - 1) ≤ 2 ^ e / 4 := by
    have h4 : (2 : ℚ) ^ (T.wide.uexp - 1) ≤ 2 ^ (e - 2) := zpow_le_zpow_right₀ (by norm_num) (by
      have : T.wide.uexp + 1 ≤ 53 - (T.wide.bias : ℤ) := by cases T <;> decide
      omega)
    rw [zpow_sub₀ (by norm_num) e 2] at h4
    linarith
  have tri : |(fadd T.wide x n).val T.wide - x.val T.wide| ≤
      |(fadd T.wide x n).val T.wide - (x.val T.wide + n.val T.wide)| + |n.val T.wide| := by
    have e : (fadd T.wide x n).val T.wide - x.val T.wide =
      ((fadd T.wide x n).val T.wide - (x.val T.wide + n.val T.wide)) + n.val T.wide := by ring
    rw [e]
    exact abs_add_le _ _
  have m1 := mul_le_mul_of_nonneg_left hsum u0
  have m2 := mul_le_mul_of_nonneg_right u1 (show (0 : ℚ) ≤ 2 ^ e / 2 by linarith)
  linarith

theorem drawRel_bounds (T : Mca.Ty) (c : Mca.Ctx) (t : Nat) (ht : 2 ≤ t) : 0 ≤ drawRel T c t ∧ drawRel T c t ≤ 1 / 2 := by
  unfold drawRel
  split
  · have a : (2 : ℚ) ^ (-(t : ℤ)) ≤ 2 ^ (-2 : ℤ) := zpow_le_zpow_right₀ (by norm_num) (by omega)
    have b : (2 : ℚ) ^ (-(T.wide.mw : ℤ)) ≤ 1 / 4 := by cases T <;> decide +kernel
    have c : (0 : ℚ) < 2 ^ (-(t : ℤ)) := zpow_pos (by norm_num) _
    have d : (0 : ℚ) < 2 ^ (-(T.wide.mw : ℤ)) := zpow_pos (by norm_num) _
    rw [show (2 : ℚ) ^ (-2 : ℤ) = 1 / 4 by norm_num] at a
    exact ⟨by linarith, by linarith⟩
  · norm_num

theorem noiseRel_nonneg (T : Mca.Ty) (c : Mca.Ctx) (t : Nat) (ht : 2 ≤ t) : 0 ≤ noiseRel T c t := by
  have h := (drawRel_bounds T c t ht).1
  have u : (0 : ℚ) < 2 ^ (-(T.wide.mw : ℤ) - 1) := zpow_pos (by norm_num) _
  unfold noiseRel
  split
  · nlinarith
  · exact h

theorem noiseAbs_nonneg (c : Mca.Ctx) : 0 ≤ noiseAbs c := by
  unfold noiseAbs
  split
  · exact (zpow_pos (by norm_num) _).le
  · exact le_rfl

/-- The quad backend, in all error modes. -/
theorem quad_changed (g : Mca.Gen σ) (hg : ∀ s, Mca.drawn (g.next s).1 ≠ 2 ^ 51) (T : Mca.Ty) (c : Mca.Ctx) (t : Nat) (hp : c.prec T = t)
    (ht : 2 ≤ t) (htm : t ≤ T.wide.mw + 1)
    (ha : c.absErr = true → 53 - (T.wide.bias : ℤ) ≤ c.absErrExp ∧ c.absErrExp ≤ T.wide.bias - 2) (s : σ) (x : Bits) (hx : x.WF T.wide) :
    ∃ y s', Mca.quadInexact g T c s x = .ok (y, s') ∧ Changed T (noiseRel T c t) (noiseAbs c) c.relErr x y := by
  rcases inexact_cases (Mca.quadPerturb g) g T c t hp (by omega) s x hx with ⟨s', h⟩ | ⟨hsp, -, s', h⟩
  · exact ⟨x, s', h, .refl (noiseRel_nonneg T c t ht) (noiseAbs_nonneg c) _ hx⟩
  have h' : Mca.quadInexact g T c s x = _ := h
  rw [h']
  obtain ⟨d0, d1⟩ := drawRel_bounds T c t ht
  -- the relative noise
  have first : ∃ y s₁, (if c.relErr then (fadd T.wide x (Mca.quadNoise T.wide (getExp T.wide x - (t - 1)) (g.next s').1), (g.next s').2)
      else (x, s')) = (y, s₁) ∧ y.WF T.wide ∧ (x.Fin T.wide → (c.relErr = true → (2 : ℚ) ^ wideLow T ≤ |x.val T.wide|) →
        |x.val T.wide| < 2 ^ ((T.wide.bias : ℤ) - 1) → y.Fin T.wide ∧ |y.val T.wide - x.val T.wide| ≤ drawRel T c t * |x.val T.wide|) := by
    cases hr : c.relErr with
    | false => exact ⟨x, s', rfl, hx, fun hf _ _ => ⟨hf, by simp [drawRel, hr]⟩⟩
    | true =>
      refine ⟨_, _, rfl, operatorC_wf _ (wide_mw T) _ _ hx (quadNoise_wide _ (Mca.wide_ty T) _ _) .add, fun hf h1 h2 => ?_⟩
      obtain ⟨e, e1, e2, e3, e4⟩ := exponent _ _ _ (h1 rfl) h2
      have hn : 1 ≤ x.exp := normal_of_val _ _ hx e e1 (by unfold wideLow at e3; omega)
      have he := Mca.exp_of_val T.wide x hx hn e e1 e2
      obtain ⟨-, r1, r2⟩ := Mca.C21_bound_partial T.wide (Mca.wide_ty T) t (by omega) (g.next s').1 (hg s') x hx hn e he.symm
        (by unfold wideLow at e3; omega) (by omega)
      refine ⟨r1, le_trans r2 ?_⟩
      unfold drawRel
      rw [hr, if_pos rfl, show e - (t : ℤ) = -t + e by ring, show e - (T.wide.mw : ℤ) = -T.wide.mw + e by ring, zpow_add₀ (by norm_num),
        zpow_add₀ (by norm_num), ← add_mul]
      exact mul_le_mul_of_nonneg_left e1 (add_pos (zpow_pos (by norm_num) _) (zpow_pos (by norm_num) _)).le
  obtain ⟨y, s₁, f1, f2, f3⟩ := first
  unfold Mca.quadPerturb
  rw [f1]
  -- the absolute noise
  cases hb : c.absErr with
  | false =>
    refine ⟨y, s₁, by simp, f2, fun h => absurd h hsp, fun hf h1 h2 => ?_⟩
    obtain ⟨a1, a2⟩ := f3 hf h1 h2
    exact ⟨a1, by simpa [noiseRel, noiseAbs, hb] using a2⟩
  | true =>
    obtain ⟨k1, k2⟩ := ha hb
    refine ⟨_, (g.next s₁).2, rfl, operatorC_wf _ (wide_mw T) _ _ f2 (quadNoise_wide _ (Mca.wide_ty T) _ _) .add, fun h => absurd h hsp, fun hf h1 h2 => ?_⟩
    obtain ⟨a1, a2⟩ := f3 hf h1 h2
    have b1 := abs_sub_abs_le_abs_sub (y.val T.wide) (x.val T.wide)
    have b2 := mul_le_mul_of_nonneg_right d1 (abs_nonneg (x.val T.wide))
    obtain ⟨c1, c2⟩ := add_noise T c.absErrExp (g.next s₁).1 (hg s₁) y a1 k1 k2 (by linarith)
    refine ⟨c1, ?_⟩
    simp only [noiseRel, noiseAbs, hb, if_true]
    have u0 : (0 : ℚ) < 2 ^ (-(T.wide.mw : ℤ) - 1) := zpow_pos (by norm_num) _
    have tri : ∀ z : ℚ, |z - x.val T.wide| ≤ |z - y.val T.wide| + |y.val T.wide - x.val T.wide| := fun z => abs_sub_le _ _ _
    have m := mul_le_mul_of_nonneg_left (show |y.val T.wide| ≤ (1 + drawRel T c t) * |x.val T.wide| by linarith) u0.le
    refine le_trans (tri _) ?_
    nlinarith

/-- The integer backend, which has relative errors only. -/
theorem int_changed (g : Mca.Gen σ) (T : Mca.Ty) (c : Mca.Ctx) (t : Nat) (hp : c.prec T = t) (ht : 1 ≤ t) (htm : t ≤ T.wide.mw)
    (s : σ) (x : Bits) (hx : x.WF T.wide) :
    ∃ y s', Mca.intInexact .wrap g T c s x = .ok (y, s') ∧ Changed T (2 ^ (1 - (t : ℤ))) 0 true x y := by
  obtain ⟨y, s', h1, h2⟩ := int_near g T c t hp ht htm s x hx
  have hr := int_relative (c.mode = .rr) T t
  refine ⟨y, s', h1, h2.wf, h2.special, fun hf h3 h4 => ?_⟩
  obtain ⟨a, b⟩ := hr.near x y hx hf h2 (h3 rfl) h4
  exact ⟨a, by rw [add_zero]; exact b⟩

/-! ## Operations -/

/-- What `--daz` and `--ftz` add to the errors. -/
def flushErr (T : Mca.Ty) (b : Bool) : ℚ := if b then 2 ^ (1 - (T.fmt.bias : ℤ)) else 0

theorem flushErr_nonneg (T : Mca.Ty) (b : Bool) : 0 ≤ flushErr T b := by
  unfold flushErr
  split
  · exact (zpow_pos (by norm_num) _).le
  · exact le_rfl

theorem flush_error (T : Mca.Ty) (b : Bool) (a : Bits) (hw : a.WF T.fmt) (hf : a.Fin T.fmt) :
    (if b then Mca.flush a else a).WF T.fmt ∧ (if b then Mca.flush a else a).Fin T.fmt ∧
      |(if b then Mca.flush a else a).val T.fmt| ≤ |a.val T.fmt| ∧
      |(if b then Mca.flush a else a).val T.fmt - a.val T.fmt| ≤ flushErr T b := by
  cases b with
  | false => exact ⟨hw, hf, le_rfl, by simp [flushErr]⟩
  | true =>
    simp only [if_true]
    unfold Mca.flush
    split_ifs with hs
    · have h0 : a.exp = 0 := hs.1
      have := expInf_ge T.fmt (by cases T <;> decide)
      refine ⟨⟨by simp [zeroBits], by simp [zeroBits]⟩, by unfold Bits.Fin zeroBits; simp only; omega, ?_, ?_⟩
      · rw [Vprec.val_zero, abs_zero]; exact abs_nonneg _
      · rw [Vprec.val_zero, zero_sub, abs_neg]
        have := abs_lt T.fmt a hw
        rw [h0] at this
        refine le_trans this.le (le_of_eq ?_)
        simp only [flushErr, if_true]
        congr 1
        push_cast
        ring
    · exact ⟨hw, hf, le_rfl, by rw [sub_self, abs_zero]; exact flushErr_nonneg _ _⟩

/-- An operand, flushed, widened and perturbed. -/
theorem operand_changed (T : Mca.Ty) (δ ε : ℚ) (hδ : 0 ≤ δ) (hε : 0 ≤ ε) (low b : Bool) (a x' : Bits) (ha : a.WF T.fmt) (hf : a.Fin T.fmt)
    (h : Changed T δ ε low (fconv T.fmt T.wide (if b then Mca.flush a else a)) x') :
    x'.Fin T.wide ∧ |x'.val T.wide - a.val T.fmt| ≤ δ * |a.val T.fmt| + ε + flushErr T b := by
  obtain ⟨w, f, l, e⟩ := flush_error T b a ha hf
  generalize (if b then Mca.flush a else a) = a' at *
  have key : x'.Fin T.wide ∧ |x'.val T.wide - a'.val T.fmt| ≤ δ * |a'.val T.fmt| + ε := by
    by_cases h0 : a'.isZero
    · have e0 : a' = zeroBits a'.sign := by
        obtain ⟨s, k, m⟩ := a'
        obtain ⟨rfl, rfl⟩ : k = 0 ∧ m = 0 := h0
        rfl
      rw [e0, fconv_zero T.fmt T.wide (by cases T <;> decide) (wide_ew T)] at h
      rw [h.special (.inl ⟨rfl, rfl⟩), e0, Vprec.val_zero, Vprec.val_zero, sub_self, abs_zero, mul_zero, zero_add]
      refine ⟨?_, hε⟩
      have := expInf_ge T.wide (wide_ew T)
      unfold Bits.Fin zeroBits
      simp only
      omega
    · obtain ⟨n1, n2, n3, -, n5⟩ := Mca.widened_normal T a' w f h0
      obtain ⟨r1, r2, r3⟩ := fmt_wide_range T
      obtain ⟨m1, m2⟩ := h.near (by unfold Bits.Fin; omega)
        (fun _ => by rw [n5]; exact le_trans (zpow_le_zpow_right₀ (by norm_num) (by unfold Fmt.uexp; omega)) (val_ge T.fmt a' h0))
        (by
          rw [n5]
          exact lt_of_lt_of_le (fin_val_lt T.fmt (by cases T <;> decide) a' w f) (zpow_le_zpow_right₀ (by norm_num) (by omega)))
      rw [n5] at m2
      exact ⟨m1, m2⟩
  refine ⟨key.1, le_trans (abs_sub_le _ (a'.val T.fmt) _) ?_⟩
  have := mul_le_mul_of_nonneg_left l hδ
  linarith [key.2]

/-- The relative error of an operation with perturbations of `δ`: `opError` (C98). -/
def mcaUnit (p : Wrapper.Prec) (δ : Mca.Ty → ℚ) : ℚ := opError (mcaTy p) (δ (mcaTy p))

/-- The absolute error of an operation with perturbations of `δ` and `ε`. -/
def mcaTiny (p : Wrapper.Prec) (δ : Mca.Ty → ℚ) (ε : ℚ) (flush : Bool) : ℚ :=
  (2 ^ ((mcaTy p).wide.uexp - 1) * (1 + δ (mcaTy p)) + ε) * (1 + unit p) + tiny p + flushErr (mcaTy p) flush

/-- The results. -/
def mcaBand (p : Wrapper.Prec) (low : Bool) : Band := ⟨if low then some (3 - ((fmtOf p).bias : ℤ)) else none, (fmtOf p).bias - 2, true⟩

/-- A conversion that does not overflow. -/
theorem host_conv (F G : Fmt) (hG : 2 ≤ G.ew) (x : Bits) (hf : x.Fin F) (hx : |x.val F| < 2 ^ (G.bias : ℤ)) :
    Vprec.Host G (x.val F) (fconv F G x) := by
  obtain ⟨c1, c2, c3, c4⟩ := fconv_round F G hG x hf (le_trans hx.le (le_maxVal G))
  refine ⟨c1, fun _ => c4, fun h => absurd (fin_lt c1 c2) h, fun h0 => ?_⟩
  have hp : 0 < (x.sig F : ℚ) * 2 ^ x.lsb F := by
    rw [← Fp.abs_val]
    exact abs_pos.2 h0
  have e : x.val F = sgn x.sign * ((x.sig F : ℚ) * 2 ^ x.lsb F) := by unfold Bits.val; ring
  rw [c3, e, Vprec.sgn_decide _ _ hp]

theorem result_changed (p : Wrapper.Prec) (δ : Mca.Ty → ℚ) (hδ : 0 ≤ δ (mcaTy p)) (hδ2 : δ (mcaTy p) ≤ 3 / 4) (ε : ℚ)
    (hε2 : ε ≤ 2 ^ (((fmtOf p).bias : ℤ) - 2)) (low b : Bool) (r : ℚ) (w z : Bits) (hw : Vprec.Host (mcaTy p).wide r w)
    (h : Changed (mcaTy p) (δ (mcaTy p)) ε low w z) :
    let y := if b then Mca.flush (fconv (mcaTy p).wide (mcaTy p).fmt z) else fconv (mcaTy p).wide (mcaTy p).fmt z
    (r = 0 → y.Fin (fmtOf p) ∧ y.val (fmtOf p) = 0) ∧
      ((mcaBand p low).Has r → y.Fin (fmtOf p) ∧ |y.val (fmtOf p) - r| ≤ mcaUnit p δ * |r| + mcaTiny p δ ε b) := by
  have hT : fmtOf p = (mcaTy p).fmt := fmtOf_eq p
  have hew : 2 ≤ (mcaTy p).fmt.ew := by cases p <;> decide
  have hu : unit p = 2 ^ (-((mcaTy p).fmt.mw : ℤ) - 1) := by rw [← hT]; rfl
  have ht : tiny p = 2 ^ ((mcaTy p).fmt.uexp - 1) := by rw [← hT]; rfl
  unfold mcaUnit mcaTiny mcaBand opError
  rw [hu, ht]
  rw [hT] at hε2 ⊢
  generalize δ (mcaTy p) = d at *
  generalize mcaTy p = T at *
  obtain ⟨r1, r2, r3⟩ := fmt_wide_range T
  constructor
  · rintro rfl
    obtain ⟨w1, w2⟩ := host_zero T.wide w hw
    have hz : w.isZero := by
      by_contra hc
      have := val_ge T.wide w hc
      rw [w2, abs_zero] at this
      have := zpow_pos (show (0 : ℚ) < 2 by norm_num) T.wide.uexp
      linarith
    rw [h.special (.inl hz)]
    have e : w = zeroBits w.sign := by
      obtain ⟨s, e, m⟩ := w
      obtain ⟨rfl, rfl⟩ : e = 0 ∧ m = 0 := hz
      rfl
    rw [e, fconv_zero T.wide T.fmt (wide_ew T) hew]
    have hz' : ∀ s, (zeroBits s).WF T.fmt ∧ (zeroBits s).Fin T.fmt := fun s => by
      have := expInf_ge T.fmt hew
      refine ⟨⟨by simp [zeroBits], by simp [zeroBits]⟩, ?_⟩
      unfold Bits.Fin zeroBits
      simp only
      omega
    obtain ⟨f1, f2, f3, -⟩ := flush_error T b _ (hz' w.sign).1 (hz' w.sign).2
    rw [Vprec.val_zero, abs_zero] at f3
    exact ⟨f2, abs_eq_zero.1 (le_antisymm f3 (abs_nonneg _))⟩
  · rintro ⟨h1, h2⟩
    have h1 : |r| < 2 ^ ((T.fmt.bias : ℤ) - 2) := h1
    have q1 : (2 : ℚ) ^ (T.fmt.bias : ℤ) = 2 ^ ((T.fmt.bias : ℤ) - 2) * 4 := by
      conv_lhs => rw [show (T.fmt.bias : ℤ) = T.fmt.bias - 2 + 2 by ring, zpow_add₀ (by norm_num)]
      norm_num
    have q2 : (2 : ℚ) ^ (T.fmt.bias : ℤ) ≤ 2 ^ ((T.wide.bias : ℤ) - 1) := zpow_le_zpow_right₀ (by norm_num) (by omega)
    have q3 : (2 : ℚ) ^ (T.fmt.bias : ℤ) ≤ 2 ^ (T.wide.bias : ℤ) := zpow_le_zpow_right₀ (by norm_num) (by omega)
    have q4 : (2 : ℚ) ^ (T.wide.uexp - 1) ≤ 2 ^ ((T.fmt.bias : ℤ) - 2) / 8 := by
      cases T <;> decide +kernel
    have q5 : (2 : ℚ) ^ (-(T.wide.mw : ℤ) - 1) ≤ 1 / 8 := by cases T <;> decide +kernel
    have p1 : (0 : ℚ) < 2 ^ ((T.fmt.bias : ℤ) - 2) := zpow_pos (by norm_num) _
    have p2 : (0 : ℚ) < 2 ^ (T.wide.uexp - 1) := zpow_pos (by norm_num) _
    have p3 : (0 : ℚ) < 2 ^ (-(T.wide.mw : ℤ) - 1) := zpow_pos (by norm_num) _
    have p4 : (0 : ℚ) < 2 ^ (-(T.fmt.mw : ℤ) - 1) := zpow_pos (by norm_num) _
    obtain ⟨w1, w2⟩ := host_abs T.wide (wide_ew T) r w hw (by linarith)
    have wb := abs_sub_abs_le_abs_sub (w.val T.wide) r
    have m1 := mul_le_mul_of_nonneg_right q5 (abs_nonneg r)
    have hlo : low = true → (2 : ℚ) ^ wideLow T ≤ |w.val T.wide| := by
      intro hl
      subst hl
      have h3 : (2 : ℚ) ^ (3 - (T.fmt.bias : ℤ)) ≤ |r| := h2 _ rfl
      have h4 : (2 : ℚ) ^ wideLow T ≤ 2 ^ (3 - (T.fmt.bias : ℤ)) / 4 := by
        refine le_trans (zpow_le_zpow_right₀ (by norm_num) (show wideLow T ≤ 3 - (T.fmt.bias : ℤ) - 2 by omega)) ?_
        rw [zpow_sub₀ (by norm_num) (3 - (T.fmt.bias : ℤ)) 2]
        norm_num
      have h5 : (2 : ℚ) ^ (T.wide.uexp - 1) ≤ 2 ^ (3 - (T.fmt.bias : ℤ)) / 8 := by cases T <;> decide +kernel
      have := abs_sub_abs_le_abs_sub r (w.val T.wide)
      rw [abs_sub_comm] at this
      linarith
    obtain ⟨z1, z2⟩ := h.near w1 hlo (by linarith)
    have zb := abs_sub_abs_le_abs_sub (z.val T.wide) (w.val T.wide)
    have m2 := mul_le_mul_of_nonneg_right hδ2 (abs_nonneg (w.val T.wide))
    have hy := host_conv T.wide T.fmt hew z z1 (by linarith)
    obtain ⟨y1, y2⟩ := host_abs T.fmt hew _ _ hy (by linarith)
    obtain ⟨-, f1, -, f2⟩ := flush_error T b _ hy.wf y1
    refine ⟨f1, ?_⟩
    generalize (if b = true then Mca.flush (fconv T.wide T.fmt z) else fconv T.wide T.fmt z) = y at *
    generalize (fconv T.wide T.fmt z).val T.fmt = y0 at *
    generalize y.val T.fmt = yv at *
    generalize z.val T.wide = zv at *
    generalize w.val T.wide = wv at *
    generalize (2 : ℚ) ^ (-(T.wide.mw : ℤ) - 1) = u at *
    generalize (2 : ℚ) ^ (-(T.fmt.mw : ℤ) - 1) = v at *
    generalize (2 : ℚ) ^ (T.wide.uexp - 1) = tw at *
    have t1 := abs_sub_le yv y0 r
    have t2 := abs_sub_le y0 zv r
    have t3 := abs_sub_le zv wv r
    have a1 : |zv| ≤ (1 + d) * |wv| + ε := by linarith
    have a2 := mul_le_mul_of_nonneg_left a1 p4.le
    have a3 : (d + v * (1 + d)) * |wv| ≤ (d + v * (1 + d)) * ((1 + u) * |r| + tw) :=
      mul_le_mul_of_nonneg_left (by linarith) (by positivity)
    nlinarith

/-- The perturbations of the mode, as changes. -/
theorem args_changed (T : Mca.Ty) (δ ε : ℚ) (low : Bool) (m : Mca.Mode) (ops args : List Bits) (hw : ∀ a ∈ ops, a.WF T.wide)
    (h : if m = .pb ∨ m = .mca then List.Forall₂ (Changed T δ ε low) ops args else args = ops) :
    List.Forall₂ (Changed T (if m = .pb ∨ m = .mca then δ else 0) (if m = .pb ∨ m = .mca then ε else 0) low) ops args := by
  by_cases hm : m = .pb ∨ m = .mca
  · rw [if_pos hm] at h
    rw [if_pos hm, if_pos hm]
    exact h
  · rw [if_neg hm] at h
    rw [if_neg hm, if_neg hm, h]
    clear h
    induction ops with
    | nil => exact .nil
    | cons a l ih => exact .cons (.refl le_rfl le_rfl _ (hw a (by simp))) (ih fun b hb => hw b (by simp [hb]))

/-- Operands change in pb and mca mode, and with `--daz`. -/
def mcaInn (cfg : Mca.Ctx) : Nat := if cfg.mode = .pb ∨ cfg.mode = .mca ∨ cfg.daz = true then 1 else 0

/-- Both flags flush. -/
def flushes (cfg : Mca.Ctx) : Bool := cfg.daz || cfg.ftz

theorem flushErr_le (T : Mca.Ty) (a b : Bool) : flushErr T a ≤ flushErr T (a || b) ∧ flushErr T b ≤ flushErr T (a || b) := by
  have : (0 : ℚ) ≤ 2 ^ (1 - (T.fmt.bias : ℤ)) := (zpow_pos (by norm_num) _).le
  cases a <;> cases b <;> simp [flushErr, this]

theorem unit_ge (p : Wrapper.Prec) (δ : Mca.Ty → ℚ) (hδ : 0 ≤ δ (mcaTy p)) : δ (mcaTy p) ≤ mcaUnit p δ := by
  unfold mcaUnit opError
  have u : (0 : ℚ) < 2 ^ (-((mcaTy p).wide.mw : ℤ) - 1) := zpow_pos (by norm_num) _
  have v : (0 : ℚ) < 2 ^ (-((mcaTy p).fmt.mw : ℤ) - 1) := zpow_pos (by norm_num) _
  have : 0 ≤ 2 ^ (-((mcaTy p).wide.mw : ℤ) - 1) * (1 + δ (mcaTy p)) := by positivity
  nlinarith [mul_nonneg (show 0 ≤ (1 + 2 ^ (-((mcaTy p).wide.mw : ℤ) - 1)) * (1 + δ (mcaTy p)) by positivity) v.le]

theorem tiny_ge (p : Wrapper.Prec) (δ : Mca.Ty → ℚ) (hδ : 0 ≤ δ (mcaTy p)) (ε : ℚ) (hε : 0 ≤ ε) (b : Bool) :
    ε + flushErr (mcaTy p) b ≤ mcaTiny p δ ε b := by
  unfold mcaTiny
  have u : (0 : ℚ) ≤ unit p := (zpow_pos (by norm_num) _).le
  have t : (0 : ℚ) ≤ tiny p := (zpow_pos (by norm_num) _).le
  have w : (0 : ℚ) < 2 ^ ((mcaTy p).wide.uexp - 1) := zpow_pos (by norm_num) _
  have : 0 ≤ 2 ^ ((mcaTy p).wide.uexp - 1) * (1 + δ (mcaTy p)) := by positivity
  nlinarith [mul_nonneg this u, mul_nonneg hε u]

theorem tiny_mono (p : Wrapper.Prec) (δ : Mca.Ty → ℚ) (ε : ℚ) (a b : Bool) : mcaTiny p δ ε b ≤ mcaTiny p δ ε (a || b) := by
  unfold mcaTiny
  linarith [(flushErr_le (mcaTy p) a b).2]

/-- Perturbations with bounds make operations with bounds. -/
theorem mca_abs (p : Wrapper.Prec) (cfg : Mca.Ctx) (δ : Mca.Ty → ℚ) (hδ : ∀ T, 0 ≤ δ T ∧ δ T ≤ 3 / 4) (ε : ℚ) (hε : 0 ≤ ε)
    (hε2 : ε ≤ 2 ^ (((fmtOf p).bias : ℤ) - 2)) (low : Bool) (I : Band)
    (o : Wrapper.OpId) (x : List (BitVec 64)) (y : Bits) (h : McaContract cfg (fun T => Changed T (δ T) ε low) o x y) :
    AbsContract p (mcaInn cfg) (mcaUnit p δ) (mcaUnit p δ) (mcaTiny p δ ε (flushes cfg)) I (mcaBand p low) (mcaBand p low) o x y := by
  have hT : fmtOf p = (mcaTy p).fmt := fmtOf_eq p
  have hd := hδ (mcaTy p)
  -- an operand
  have opd : ∀ a c : Bits, a.WF (fmtOf p) → a.Fin (fmtOf p) →
      Changed (mcaTy p) (if cfg.mode = .pb ∨ cfg.mode = .mca then δ (mcaTy p) else 0) (if cfg.mode = .pb ∨ cfg.mode = .mca then ε else 0) low
        (fconv (mcaTy p).fmt (mcaTy p).wide (if cfg.daz then Mca.flush a else a)) c →
      c.Fin (mcaTy p).wide ∧ |c.val (mcaTy p).wide - a.val (fmtOf p)| ≤
        (mcaInn cfg : ℚ) * (mcaUnit p δ * |a.val (fmtOf p)| + mcaTiny p δ ε (flushes cfg)) := by
    intro a c wa fa hc
    rw [hT] at wa fa ⊢
    obtain ⟨c1, c2⟩ := operand_changed (mcaTy p) _ _ (by split_ifs <;> [exact hd.1; exact le_rfl]) (by split_ifs <;> [exact hε; exact le_rfl]) low cfg.daz a c wa fa hc
    refine ⟨c1, le_trans c2 ?_⟩
    have g1 := mul_le_mul_of_nonneg_right (unit_ge p δ hd.1) (abs_nonneg (a.val (mcaTy p).fmt))
    have g2 := tiny_ge p δ hd.1 ε hε (flushes cfg)
    have g3 := (flushErr_le (mcaTy p) cfg.daz cfg.ftz).1
    have g4 : flushErr (mcaTy p) cfg.daz ≤ flushErr (mcaTy p) (flushes cfg) := g3
    have g5 := mul_nonneg hd.1 (abs_nonneg (a.val (mcaTy p).fmt))
    have g6 := flushErr_nonneg (mcaTy p) cfg.daz
    unfold mcaInn
    by_cases hm : cfg.mode = .pb ∨ cfg.mode = .mca
    · rw [if_pos hm, if_pos hm, if_pos (by tauto), Nat.cast_one, one_mul]
      linarith
    · rw [if_neg hm, if_neg hm, zero_mul, zero_add, zero_add]
      cases hz : cfg.daz with
      | true =>
        rw [hz] at g4
        rw [if_pos (by simp), Nat.cast_one, one_mul]
        linarith
      | false =>
        rw [if_neg (by simpa using hm), Nat.cast_zero, zero_mul]
        simp [flushErr]
  -- a result
  have res : ∀ (r : ℚ) (w z : Bits), Vprec.Host (mcaTy p).wide r w →
      (if cfg.mode = .rr ∨ cfg.mode = .mca then Changed (mcaTy p) (δ (mcaTy p)) ε low w z else z = w) →
      y = fconv (mcaTy p).fmt (fmtOf p) (if cfg.ftz then Mca.flush (fconv (mcaTy p).wide (mcaTy p).fmt z) else fconv (mcaTy p).wide (mcaTy p).fmt z) →
      (r = 0 → y.Fin (fmtOf p) ∧ y.val (fmtOf p) = 0) ∧
        ((mcaBand p low).Has r → y.Fin (fmtOf p) ∧ |y.val (fmtOf p) - r| ≤ mcaUnit p δ * |r| + mcaTiny p δ ε (flushes cfg)) := by
    intro r w z hw hz hy
    have hc : Changed (mcaTy p) (δ (mcaTy p)) ε low w z := by
      split_ifs at hz
      · exact hz
      · rw [hz]; exact .refl hd.1 hε _ hw.wf
    have e : y = if cfg.ftz then Mca.flush (fconv (mcaTy p).wide (mcaTy p).fmt z) else fconv (mcaTy p).wide (mcaTy p).fmt z := by
      rw [hy, hT]
      have hew : 2 ≤ (mcaTy p).fmt.ew := by cases p <;> decide
      split
      · unfold Mca.flush
        split
        · exact fconv_zero _ _ hew hew false
        · exact fconv_idem _ _ (fmt_mw _) hew _
      · exact fconv_idem _ _ (fmt_mw _) hew _
    obtain ⟨r1, r2⟩ := result_changed p δ hd.1 hd.2 ε hε2 low cfg.ftz r w z hw hc
    rw [← e] at r1 r2
    refine ⟨r1, fun h => ⟨(r2 h).1, le_trans (r2 h).2 ?_⟩⟩
    linarith [tiny_mono p δ ε cfg.daz cfg.ftz, show mcaTiny p δ ε (flushes cfg) = mcaTiny p δ ε (cfg.daz || cfg.ftz) from rfl]
  have hwf : ∀ a : Bits, (fconv (mcaTy p).fmt (mcaTy p).wide a).WF (mcaTy p).wide := fun a => fconv_wf _ _ (wide_mw _) _
  rcases o with ⟨a, q⟩ | q | q | _
  · obtain ⟨args, z, h0, h2, h3⟩ := h
    rintro rfl fA fB - -
    have h1 := args_changed (mcaTy q) _ ε low cfg.mode _ args (by
      intro b hb
      obtain ⟨c, -, rfl⟩ := List.mem_map.1 hb
      exact hwf _) h0
    clear h0
    cases h1 with
    | cons n1 h1 =>
      cases h1 with
      | cons n2 h1 =>
        cases h1
        rename_i c d
        obtain ⟨c1, c2⟩ := opd _ c (operand_wf _ _ _) fA n1
        obtain ⟨d1, d2⟩ := opd _ d (operand_wf _ _ _) fB n2
        refine ⟨c.val (mcaTy q).wide, d.val (mcaTy q).wide, c2, d2, fun hdiv => ?_⟩
        obtain ⟨r1, r2⟩ := res _ _ z (wide_host (mcaTy q) a q c d c1 d1 hdiv) h2 h3
        simp only [ite_self]
        exact ⟨fun _ => r1, r2⟩
  · trivial
  · obtain ⟨args, z, h0, h2, h3⟩ := h
    rintro rfl fA fB fC - - -
    have h1 := args_changed (mcaTy q) _ ε low cfg.mode _ args (by
      intro b hb
      obtain ⟨c, -, rfl⟩ := List.mem_map.1 hb
      exact hwf _) h0
    clear h0
    cases h1 with
    | cons n1 h1 =>
      cases h1 with
      | cons n2 h1 =>
        cases h1 with
        | cons n3 h1 =>
          cases h1
          rename_i c d e
          obtain ⟨c1, c2⟩ := opd _ c (operand_wf _ _ _) fA n1
          obtain ⟨d1, d2⟩ := opd _ d (operand_wf _ _ _) fB n2
          obtain ⟨e1, e2⟩ := opd _ e (operand_wf _ _ _) fC n3
          obtain ⟨r1, r2⟩ := res _ _ z (host_ffma (mcaTy q).wide (wide_ew _) (by cases q <;> decide) c d e c1 d1 e1) h2 h3
          exact ⟨c.val (mcaTy q).wide, d.val (mcaTy q).wide, e.val (mcaTy q).wide, c2, d2, e2, fun _ => r1, r2⟩
  · trivial

/-- **C112** The quad backend of MCA: all modes and error modes, precisions from 2 on, all sparsities, with and without `--daz` and `--ftz`, a
generator that does not draw one half (C21), and an exponent of the absolute error that does not make results overflow. -/
theorem C112_quad_partial (p : Wrapper.Prec) (g : Mca.Gen σ) (hg : ∀ s, Mca.drawn (g.next s).1 ≠ 2 ^ 51) (cfg : Mca.Ctx) (t : Mca.Ty → Nat)
    (hp : ∀ T, cfg.prec T = t T) (ht : ∀ T, 2 ≤ t T ∧ t T ≤ T.wide.mw + 1)
    (ha : cfg.absErr = true → -970 ≤ cfg.absErrExp ∧ cfg.absErrExp ≤ ((fmtOf p).bias : ℤ) - 2) (fl : Flags) (hfc : fl.fcmp = false) (I : Band)
    (bs : List (Wrapper.Backend σ κ)) (ctx : Nat → κ) :
    Meets fl (AbsContract p (mcaInn cfg) (mcaUnit p fun T => noiseRel T cfg (t T)) (mcaUnit p fun T => noiseRel T cfg (t T))
      (mcaTiny p (fun T => noiseRel T cfg (t T)) (noiseAbs cfg) (flushes cfg)) I (mcaBand p cfg.relErr) (mcaBand p cfg.relErr))
      (bs ++ [mcaBackend (Mca.quadPerturb g) g cfg]) ctx := by
  refine (mca_meets _ g cfg (fun T => Changed T (noiseRel T cfg (t T)) (noiseAbs cfg) cfg.relErr) (fun T s x hx => ?_) fl hfc bs ctx).mono
    (mca_abs p cfg _ (fun T => ⟨noiseRel_nonneg T cfg _ (ht T).1, ?_⟩) _ (noiseAbs_nonneg cfg) ?_ _ I)
  · obtain ⟨y, s', h1, h2⟩ := quad_changed g hg T cfg (t T) (hp T) (ht T).1 (ht T).2 (fun h => by
      obtain ⟨a, b⟩ := ha h
      have c : ((fmtOf p).bias : ℤ) ≤ 1023 := by cases p <;> decide
      cases T
      · exact ⟨a, by show _ ≤ (1023 : ℤ) - 2; omega⟩
      · exact ⟨by show (53 : ℤ) - 16383 ≤ _; omega, by show _ ≤ (16383 : ℤ) - 2; omega⟩) s x hx
    exact ⟨y, s', h1, h2, h2.wf⟩
  · have h := drawRel_bounds T cfg (t T) (ht T).1
    have u0 : (0 : ℚ) < 2 ^ (-(T.wide.mw : ℤ) - 1) := zpow_pos (by norm_num) _
    have u1 : (2 : ℚ) ^ (-(T.wide.mw : ℤ) - 1) ≤ 1 / 8 := by cases T <;> decide +kernel
    unfold noiseRel
    split_ifs
    · nlinarith
    · linarith
  · unfold noiseAbs
    split_ifs with h
    · exact zpow_le_zpow_right₀ (by norm_num) (ha h).2
    · exact (zpow_pos (by norm_num) _).le

/-- **C112** Integer MCA: all modes, precisions from 2 on, all sparsities, with and without `--daz` and `--ftz`. -/
theorem C112_int_partial (p : Wrapper.Prec) (g : Mca.Gen σ) (cfg : Mca.Ctx) (t : Mca.Ty → Nat) (hp : ∀ T, cfg.prec T = t T)
    (ht : ∀ T, 2 ≤ t T ∧ t T ≤ T.wide.mw) (fl : Flags) (hfc : fl.fcmp = false) (I : Band) (bs : List (Wrapper.Backend σ κ)) (ctx : Nat → κ) :
    Meets fl (AbsContract p (mcaInn cfg) (mcaUnit p fun T => 2 ^ (1 - (t T : ℤ))) (mcaUnit p fun T => 2 ^ (1 - (t T : ℤ)))
      (mcaTiny p (fun T => 2 ^ (1 - (t T : ℤ))) 0 (flushes cfg)) I (mcaBand p true) (mcaBand p true))
      (bs ++ [mcaIntBackend .wrap g cfg]) ctx := by
  refine (mca_meets _ g cfg (fun T => Changed T (2 ^ (1 - (t T : ℤ))) 0 true) (fun T s x hx => ?_) fl hfc bs ctx).mono
    (mca_abs p cfg _ (fun T => ⟨(zpow_pos (by norm_num) _).le, ?_⟩) _ le_rfl (zpow_pos (by norm_num) _).le _ I)
  · obtain ⟨y, s', h1, h2⟩ := int_changed g T cfg (t T) (hp T) (by have := (ht T).1; omega) (ht T).2 s x hx
    exact ⟨y, s', h1, h2, h2.wf⟩
  · have : (2 : ℚ) ^ (1 - (t T : ℤ)) ≤ 2 ^ (-1 : ℤ) := zpow_le_zpow_right₀ (by norm_num) (by have := (ht T).1; omega)
    rw [show (2 : ℚ) ^ (-1 : ℤ) = 1 / 2 by norm_num] at this
    linarith

end Verif.Pass.Mix.Gen
