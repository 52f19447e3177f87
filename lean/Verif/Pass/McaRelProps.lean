import Verif.Pass.McaProgProps
import Mathlib.Algebra.Order.Archimedean.Basic

/-!
# Property C96, continued: relative errors of programs under MCA

The usual model of rounding errors, `fl(a op b) = (a op b)(1 + ε)`, for programs run with MCA.
-/

namespace Verif.Pass
open Verif Verif.Fp

variable {P σ κ : Type}

/-! ## Relative errors -/

/-- A nearest number is within half a unit in the last place, relatively. -/
theorem near_rel (F : Fmt) (hew : 2 ≤ F.ew) (x v : ℚ) (hn : ∀ w : Bits, w.WF F → |v - x| ≤ |w.val F - x|)
    (h1 : (2 : ℚ) ^ (1 - (F.bias : ℤ)) ≤ |x|) (h2 : |x| < 2 ^ (F.bias : ℤ)) :
    |v - x| ≤ |x| * 2 ^ (-(F.mw : ℤ) - 1) := by
  have hx0 : 0 < |x| := lt_of_lt_of_le (zpow_pos (by norm_num) _) h1
  obtain ⟨e, he1, he2⟩ := exists_mem_Ico_zpow hx0 (show (1 : ℚ) < 2 by norm_num)
  have hlo : 1 - (F.bias : ℤ) ≤ e := by
    have := lt_of_le_of_lt h1 he2
    have := (zpow_lt_zpow_iff_right₀ (by norm_num : (1 : ℚ) < 2)).1 this
    omega
  have hhi : e < F.bias := (zpow_lt_zpow_iff_right₀ (by norm_num : (1 : ℚ) < 2)).1 (lt_of_le_of_lt he1 h2)
  have hu : (0 : ℚ) < 2 ^ (e - F.mw) := zpow_pos (by norm_num) _
  have key : ∃ w : Bits, w.WF F ∧ |w.val F - x| ≤ 2 ^ (e - F.mw) / 2 := by
    have hr := abs_sub_round (x / 2 ^ (e - F.mw))
    have hd : |((round (x / 2 ^ (e - F.mw)) : ℤ) : ℚ) * 2 ^ (e - F.mw) - x| ≤ 2 ^ (e - F.mw) / 2 := by
      have : ((round (x / 2 ^ (e - F.mw)) : ℤ) : ℚ) * 2 ^ (e - F.mw) - x =
          -((x / 2 ^ (e - F.mw) - round (x / 2 ^ (e - F.mw))) * 2 ^ (e - F.mw)) := by
        field_simp
        ring
      rw [this, abs_neg, abs_mul, abs_of_pos hu]
      have := mul_le_mul_of_nonneg_right hr hu.le
      linarith
    have hN : |round (x / 2 ^ (e - F.mw))| ≤ 2 ^ (F.mw + 1) := by
      have hq : |x / 2 ^ (e - F.mw)| < 2 ^ (F.mw + 1) := by
        rw [abs_div, abs_of_pos hu, div_lt_iff₀ hu, ← zpow_natCast, ← zpow_add₀ (by norm_num)]
        rw [show ((F.mw + 1 : ℕ) : ℤ) + (e - F.mw) = e + 1 by push_cast; ring]
        exact he2
      have : |((round (x / 2 ^ (e - F.mw)) : ℤ) : ℚ)| < 2 ^ (F.mw + 1) + 1 := by
        have := abs_sub_abs_le_abs_sub ((round (x / 2 ^ (e - F.mw)) : ℤ) : ℚ) (x / 2 ^ (e - F.mw))
        rw [abs_sub_comm] at this
        linarith
      have h3 : |round (x / 2 ^ (e - F.mw))| < 2 ^ (F.mw + 1) + 1 := by exact_mod_cast this
      omega
    generalize round (x / 2 ^ (e - F.mw)) = N at hd hN
    by_cases hlt : |N| < 2 ^ (F.mw + 1)
    · obtain ⟨w, w1, w2⟩ := Vprec.representable F hew N (e - F.mw) hlt (by unfold Fmt.uexp; omega) (by omega)
      exact ⟨w, w1, by rw [w2]; exact hd⟩
    · have hN2 : |N| = 2 ^ (F.mw + 1) := by omega
      obtain ⟨s, hs, hs2⟩ : ∃ s : ℤ, N = s * 2 ^ F.mw * 2 ∧ |s| = 1 := by
        rcases abs_choice N with h | h
        · exact ⟨1, by rw [h] at hN2; rw [hN2, pow_succ]; ring, by simp⟩
        · refine ⟨-1, ?_, by simp⟩
          rw [h, pow_succ] at hN2
          linarith
      obtain ⟨w, w1, w2⟩ := Vprec.representable F hew (s * 2 ^ F.mw) (e + 1 - F.mw)
        (by rw [abs_mul, hs2, one_mul, abs_of_pos (by positivity)]; exact pow_lt_pow_right₀ (by norm_num) (by omega))
        (by unfold Fmt.uexp; omega) (by omega)
      refine ⟨w, w1, ?_⟩
      rw [w2]
      convert hd using 3
      rw [hs, show e + 1 - (F.mw : ℤ) = e - F.mw + 1 by ring, zpow_add_one₀ (by norm_num)]
      push_cast
      ring
  obtain ⟨w, w1, w2⟩ := key
  refine le_trans (le_trans (hn w w1) w2) ?_
  have : (2 : ℚ) ^ (e - F.mw) / 2 = 2 ^ e * 2 ^ (-(F.mw : ℤ) - 1) := by
    rw [div_eq_mul_inv, ← zpow_sub_one₀ (by norm_num), ← zpow_add₀ (by norm_num)]
    congr 1
    ring
  rw [this]
  exact mul_le_mul_of_nonneg_right he1 (zpow_pos (by norm_num) _).le

theorem host_rel (F : Fmt) (hew : 2 ≤ F.ew) (x : ℚ) (y : Bits) (h : Vprec.Host F x y)
    (h1 : (2 : ℚ) ^ (1 - (F.bias : ℤ)) ≤ |x|) (h2 : |x| < 2 ^ (F.bias : ℤ)) :
    y.Fin F ∧ |y.val F - x| ≤ |x| * 2 ^ (-(F.mw : ℤ) - 1) := by
  have hf : y.exp < F.expInf := by
    by_contra hc
    have h3 := (h.inf hc).2
    unfold Vprec.overflowFrom at h3
    have e : (2 : ℚ) ^ (F.bias : ℤ) = 2 ^ (F.mw + 1) * 2 ^ ((F.bias : ℤ) - F.mw - 1) := by
      rw [← zpow_natCast, ← zpow_add₀ (by norm_num)]; congr 1; push_cast; ring
    have hu : (0 : ℚ) < 2 ^ ((F.bias : ℤ) - F.mw - 1) := zpow_pos (by norm_num) _
    have hm : (1 : ℚ) ≤ 2 ^ (F.mw + 1) := one_le_pow₀ (by norm_num)
    have : (2 : ℚ) ^ (F.mw + 1) ≤ 2 ^ (F.mw + 2) - 1 := by rw [pow_succ 2 (F.mw + 1)]; linarith
    have := mul_le_mul_of_nonneg_right this hu.le
    linarith
  exact ⟨by unfold Bits.Fin; omega, near_rel F hew x _ (h.near hf) h1 h2⟩

/-- The exponents of the wide type at which perturbations are relative. -/
def wideLow (T : Mca.Ty) : ℤ := 53 + T.wide.mw - T.wide.bias

/-- `N` changes a wide number that is not extreme by `δ` at most, relatively, and no zero. -/
structure Relative (T : Mca.Ty) (δ : ℚ) (N : Bits → Bits → Prop) : Prop where
  wf : ∀ x x', x.WF T.wide → N x x' → x'.WF T.wide
  special : ∀ x x', Mca.Special T.wide x → N x x' → x' = x
  near : ∀ x x', x.WF T.wide → x.Fin T.wide → N x x' → (2 : ℚ) ^ wideLow T ≤ |x.val T.wide| →
    |x.val T.wide| < 2 ^ ((T.wide.bias : ℤ) - 1) → x'.Fin T.wide ∧ |x'.val T.wide - x.val T.wide| ≤ δ * |x.val T.wide|

theorem exponent (x : ℚ) (lo hi : ℤ) (h1 : (2 : ℚ) ^ lo ≤ |x|) (h2 : |x| < 2 ^ hi) :
    ∃ e : ℤ, (2 : ℚ) ^ e ≤ |x| ∧ |x| < 2 ^ (e + 1) ∧ lo ≤ e ∧ e + 1 ≤ hi := by
  have hx0 : 0 < |x| := lt_of_lt_of_le (zpow_pos (by norm_num) _) h1
  obtain ⟨e, he1, he2⟩ := exists_mem_Ico_zpow hx0 (show (1 : ℚ) < 2 by norm_num)
  refine ⟨e, he1, he2, ?_, ?_⟩
  · have := (zpow_lt_zpow_iff_right₀ (by norm_num : (1 : ℚ) < 2)).1 (lt_of_le_of_lt h1 he2)
    omega
  · have := (zpow_lt_zpow_iff_right₀ (by norm_num : (1 : ℚ) < 2)).1 (lt_of_le_of_lt he1 h2)
    omega

theorem int_relative (rr : Bool) (T : Mca.Ty) (t : Nat) : Relative T (2 ^ (1 - (t : ℤ))) (IntNear rr T.wide t) where
  wf _ _ _ h := h.wf
  special _ _ hs h := h.special hs
  near x x' hx hf h h1 h2 := by
    obtain ⟨e, e1, e2, e3, e4⟩ := exponent _ _ _ h1 h2
    obtain ⟨n1, -, -, n4⟩ := h.near hf e e1 e2 (by unfold wideLow at e3; omega) (by omega)
    refine ⟨n1, le_trans n4 ?_⟩
    rw [show e - (t : ℤ) + 1 = (1 - t) + e by ring, zpow_add₀ (by norm_num)]
    exact mul_le_mul_of_nonneg_left e1 (zpow_pos (by norm_num) _).le

theorem quad_relative (rr : Bool) (T : Mca.Ty) (t : Nat) (ht : t ≤ T.wide.mw + 1) :
    Relative T (2 ^ (-(t : ℤ)) + 2 ^ (-(T.wide.mw : ℤ))) (QuadNear rr T.wide t) where
  wf _ _ _ h := h.wf
  special _ _ hs h := h.special hs
  near x x' hx hf h h1 h2 := by
    obtain ⟨e, e1, e2, e3, e4⟩ := exponent _ _ _ h1 h2
    obtain ⟨n1, n4⟩ := h.near hf e e1 e2 (by unfold wideLow at e3; omega) (by omega)
    refine ⟨n1, le_trans n4 ?_⟩
    rw [show e - (t : ℤ) = -t + e by ring, show e - (T.wide.mw : ℤ) = -T.wide.mw + e by ring, zpow_add₀ (by norm_num),
      zpow_add₀ (by norm_num), ← add_mul]
    exact mul_le_mul_of_nonneg_left e1 (add_pos (zpow_pos (by norm_num) _) (zpow_pos (by norm_num) _)).le

/-- The real operation. -/
def realOp : Wrapper.Arith → ℚ → ℚ → ℚ
  | .add, a, b => a + b
  | .sub, a, b => a - b
  | .mul, a, b => a * b
  | .div, a, b => a / b

/-- The error of one operation whose result is perturbed by `δ`: a rounding in the wide type, the perturbation and a
rounding in the type. -/
def opError (T : Mca.Ty) (δ : ℚ) : ℚ := (1 + 2 ^ (-(T.wide.mw : ℤ) - 1)) * (1 + δ) * (1 + 2 ^ (-(T.fmt.mw : ℤ) - 1)) - 1

/-- The model of errors in programs: operands changed by `δ` at most in pb and mca mode, and the operation on them made
with the error `opError`, with `δ` in rr and mca mode; a result of zero is exact. -/
def RelContract (mode : Mca.Mode) (δ : Mca.Ty → ℚ) : Contract
  | .arith a p, x, y =>
    let T := mcaTy p
    let A := operand T.fmt x 0
    let B := operand T.fmt x 1
    A.Fin T.fmt → B.Fin T.fmt →
      ∃ A' B' : ℚ,
        |A' - A.val T.fmt| ≤ (if mode = .pb ∨ mode = .mca then δ T else 0) * |A.val T.fmt| ∧
        |B' - B.val T.fmt| ≤ (if mode = .pb ∨ mode = .mca then δ T else 0) * |B.val T.fmt| ∧
        ((a = .div → B' ≠ 0) →
          (realOp a A' B' = 0 → y.Fin T.fmt ∧ y.val T.fmt = 0) ∧
          ((2 : ℚ) ^ (3 - (T.fmt.bias : ℤ)) ≤ |realOp a A' B'| → |realOp a A' B'| < 2 ^ ((T.fmt.bias : ℤ) - 2) →
            y.Fin T.fmt ∧ |y.val T.fmt - realOp a A' B'| ≤
              opError T (if mode = .rr ∨ mode = .mca then δ T else 0) * |realOp a A' B'|))
  | .fma p, x, y =>
    let T := mcaTy p
    let A := operand T.fmt x 0
    let B := operand T.fmt x 1
    let C := operand T.fmt x 2
    A.Fin T.fmt → B.Fin T.fmt → C.Fin T.fmt →
      ∃ A' B' C' : ℚ,
        |A' - A.val T.fmt| ≤ (if mode = .pb ∨ mode = .mca then δ T else 0) * |A.val T.fmt| ∧
        |B' - B.val T.fmt| ≤ (if mode = .pb ∨ mode = .mca then δ T else 0) * |B.val T.fmt| ∧
        |C' - C.val T.fmt| ≤ (if mode = .pb ∨ mode = .mca then δ T else 0) * |C.val T.fmt| ∧
        (A' * B' + C' = 0 → y.Fin T.fmt ∧ y.val T.fmt = 0) ∧
        ((2 : ℚ) ^ (3 - (T.fmt.bias : ℤ)) ≤ |A' * B' + C'| → |A' * B' + C'| < 2 ^ ((T.fmt.bias : ℤ) - 2) →
          y.Fin T.fmt ∧ |y.val T.fmt - (A' * B' + C')| ≤
            opError T (if mode = .rr ∨ mode = .mca then δ T else 0) * |A' * B' + C'|)
  | _, _, _ => True

/-- Three changes, one after the other. -/
theorem three_errors {r w z y u d v : ℚ} (h1 : |w - r| ≤ |r| * u) (h2 : |z - w| ≤ d * |w|) (h3 : |y - z| ≤ |z| * v)
    (hd : 0 ≤ d) (hv : 0 ≤ v) : |y - r| ≤ ((1 + u) * (1 + d) * (1 + v) - 1) * |r| := by
  have hw : |w| ≤ |r| * (1 + u) := by
    have := abs_sub_abs_le_abs_sub w r
    linarith
  have hz : |z| ≤ |w| * (1 + d) := by
    have := abs_sub_abs_le_abs_sub z w
    linarith
  have hyr : |y - r| ≤ |y - z| + |z - w| + |w - r| := by
    have e : y - r = (y - z) + (z - w) + (w - r) := by ring
    rw [e]
    exact le_trans (abs_add_le _ _) (by linarith [abs_add_le (y - z) (z - w)])
  have a1 : |z| * v ≤ |w| * (1 + d) * v := mul_le_mul_of_nonneg_right hz hv
  have a2 : |w| * ((1 + d) * v + d) ≤ |r| * (1 + u) * ((1 + d) * v + d) :=
    mul_le_mul_of_nonneg_right hw (by positivity)
  nlinarith

theorem fmt_wide_range (T : Mca.Ty) : wideLow T ≤ 1 - (T.fmt.bias : ℤ) - T.fmt.mw ∧ (T.fmt.bias : ℤ) + 4 ≤ T.wide.bias ∧
    1 - (T.wide.bias : ℤ) ≤ 3 - (T.fmt.bias : ℤ) := by
  cases T <;> decide

theorem fin_val_lt (F : Fmt) (hew : 2 ≤ F.ew) (a : Bits) (ha : a.WF F) (hf : a.Fin F) : |a.val F| < 2 ^ ((F.bias : ℤ) + 1) :=
  Vprec.val_lt F hew a ha (fin_lt ha hf)

theorem val_ge (F : Fmt) (a : Bits) (h : ¬ a.isZero) : (2 : ℚ) ^ F.uexp ≤ |a.val F| := by
  have hu : (0 : ℚ) < 2 ^ F.uexp := zpow_pos (by norm_num) _
  have hs : |sgn a.sign| = 1 := by unfold sgn; cases a.sign <;> simp
  rw [val_eq_mag, abs_mul, abs_mul, hs, one_mul, abs_of_pos hu, abs_of_nonneg (by positivity)]
  have : 1 ≤ a.mag F := Nat.one_le_iff_ne_zero.2 fun h0 => h ((mag_eq_zero _ _).1 h0)
  have : (1 : ℚ) ≤ a.mag F := by exact_mod_cast this
  have := mul_le_mul_of_nonneg_right this hu.le
  linarith

/-- A finite operand, widened and perturbed. -/
theorem operand_relative (T : Mca.Ty) (δ : ℚ) (N : Bits → Bits → Prop) (hN : Relative T δ N) (a x' : Bits)
    (ha : a.WF T.fmt) (hf : a.Fin T.fmt) (h : N (fconv T.fmt T.wide a) x') :
    x'.WF T.wide ∧ x'.Fin T.wide ∧ |x'.val T.wide - a.val T.fmt| ≤ δ * |a.val T.fmt| := by
  by_cases h0 : a.isZero
  · have e : fconv T.fmt T.wide a = zeroBits a.sign := by
      have : a = zeroBits a.sign := by
        obtain ⟨s, e, m⟩ := a
        obtain ⟨rfl, rfl⟩ : e = 0 ∧ m = 0 := h0
        rfl
      rw [this]
      exact fconv_zero T.fmt T.wide (by cases T <;> decide) (wide_ew T) _
    rw [e] at h
    have := hN.special _ _ (.inl ⟨rfl, rfl⟩) h
    subst this
    have hz : ∀ F : Fmt, (zeroBits a.sign).val F = 0 := fun F => Vprec.val_zero F _
    have hv : a.val T.fmt = 0 := by
      unfold Bits.val Bits.sig
      rw [if_pos h0.1, h0.2]; simp
    refine ⟨⟨by simp [zeroBits], by simp [zeroBits]⟩, ?_, by rw [hz, hv]; simp⟩
    have := expInf_ge T.wide (wide_ew T)
    unfold Bits.Fin zeroBits
    simp only
    omega
  · obtain ⟨n1, n2, n3, -, n5⟩ := Mca.widened_normal T a ha hf h0
    obtain ⟨r1, r2, r3⟩ := fmt_wide_range T
    have hew : 2 ≤ T.fmt.ew := by cases T <;> decide
    obtain ⟨m1, m2⟩ := hN.near _ _ n1 (by unfold Bits.Fin; omega) h
      (by rw [n5]; exact le_trans (zpow_le_zpow_right₀ (by norm_num) (by unfold Fmt.uexp; omega)) (val_ge T.fmt a h0))
      (by
        rw [n5]
        exact lt_of_lt_of_le (fin_val_lt T.fmt hew a ha hf) (zpow_le_zpow_right₀ (by norm_num) (by omega)))
    rw [n5] at m2
    exact ⟨hN.wf _ _ n1 h, m1, m2⟩

theorem eq_relative (T : Mca.Ty) : Relative T 0 (fun x x' => x' = x) where
  wf x x' h e := by rw [e]; exact h
  special _ _ _ h := h
  near x x' _ hf e _ _ := by rw [e]; exact ⟨hf, by simp⟩

theorem wide_host (T : Mca.Ty) (a : Wrapper.Arith) (p : Wrapper.Prec) (c d : Bits) (fc : c.Fin T.wide) (fd : d.Fin T.wide)
    (h : a = .div → d.val T.wide ≠ 0) :
    Vprec.Host T.wide (realOp a (c.val T.wide) (d.val T.wide)) (wideOp (.arith a p) T.wide [c, d]) := by
  have hu : T.wide.uexp ≤ 0 := by cases T <;> decide
  cases a with
  | add => exact Vprec.host_fadd _ (wide_ew T) c d fc fd
  | sub => exact Vprec.host_fsub _ (wide_ew T) c d fc fd
  | mul => exact Vprec.host_fmul _ (wide_ew T) hu c d fc fd
  | div => exact Vprec.host_fdiv _ (wide_ew T) hu c d fc fd (h rfl)

theorem host_ffma (F : Fmt) (hew : 2 ≤ F.ew) (hu : F.uexp ≤ 0) (a b c : Bits) (fa : a.Fin F) (fb : b.Fin F) (fc : c.Fin F) :
    Vprec.Host F (a.val F * b.val F + c.val F) (ffma F a b c) := by
  have na := fin_not fa
  have nb := fin_not fb
  have nc := fin_not fc
  obtain ⟨J, hJ⟩ : ∃ J : ℕ, F.uexp = -(J : ℤ) := ⟨(-F.uexp).toNat, by omega⟩
  have e : a.val F * b.val F + c.val F = ((a.imag F * b.imag F + c.imag F * 2 ^ (-F.uexp).toNat : ℤ) : ℚ) / ((2 ^ (-F.uexp).toNat : ℕ) : ℚ) * 2 ^ F.uexp := by
    rw [val_eq_imag, val_eq_imag, val_eq_imag, hJ, neg_neg, Int.toNat_natCast, zpow_neg, zpow_natCast]
    push_cast
    field_simp
  unfold ffma
  rw [if_neg (by tauto), if_neg (by tauto), if_neg nc.2, e]
  dsimp only
  generalize a.imag F * b.imag F + c.imag F * 2 ^ (-F.uexp).toNat = z
  split_ifs with h
  · rw [h, Int.cast_zero, zero_div, zero_mul]
    exact Vprec.host_zero F hew _
  · have := Vprec.host_encodeQ F hew (decide (z < 0)) z.natAbs (2 ^ (-F.uexp).toNat) (by positivity)
    rw [encodeQ_pow] at this
    rw [Vprec.imag_sgn z, mul_div_assoc]
    exact this

/-- The result of an operation in the wide type, perturbed and rounded. -/
theorem result_relative (T : Mca.Ty) (δ : ℚ) (hδ : 0 ≤ δ) (hδ2 : δ ≤ 1 / 2) (N : Bits → Bits → Prop) (hN : Relative T δ N)
    (r : ℚ) (w z : Bits) (hw : Vprec.Host T.wide r w) (h : N w z) :
    (r = 0 → (fconv T.wide T.fmt z).Fin T.fmt ∧ (fconv T.wide T.fmt z).val T.fmt = 0) ∧
    ((2 : ℚ) ^ (3 - (T.fmt.bias : ℤ)) ≤ |r| → |r| < 2 ^ ((T.fmt.bias : ℤ) - 2) →
      (fconv T.wide T.fmt z).Fin T.fmt ∧ |(fconv T.wide T.fmt z).val T.fmt - r| ≤ opError T δ * |r|) := by
  obtain ⟨r1, r2, r3⟩ := fmt_wide_range T
  have hew : 2 ≤ T.fmt.ew := by cases T <;> decide
  constructor
  · rintro rfl
    have hwf : w.exp < T.wide.expInf := by
      by_contra hc
      have := (hw.inf hc).2
      rw [abs_zero] at this
      have h2 : (0 : ℚ) < Vprec.overflowFrom T.wide.mw T.wide.bias := by
        unfold Vprec.overflowFrom
        apply mul_pos _ (zpow_pos (by norm_num) _)
        have : (1 : ℚ) < 2 ^ (T.wide.mw + 2) := one_lt_pow₀ (by norm_num) (by omega)
        linarith
      linarith
    have hv : w.val T.wide = 0 := by
      have := hw.near hwf (zeroBits false) ⟨by simp [zeroBits], by simp [zeroBits]⟩
      rw [Vprec.val_zero, sub_zero, sub_zero, abs_zero] at this
      exact abs_eq_zero.1 (le_antisymm this (abs_nonneg _))
    have hz : w.isZero := by
      by_contra hc
      have := val_ge T.wide w hc
      rw [hv, abs_zero] at this
      have := zpow_pos (show (0 : ℚ) < 2 by norm_num) T.wide.uexp
      linarith
    rw [hN.special _ _ (.inl hz) h]
    have e : w = zeroBits w.sign := by
      obtain ⟨s, e, m⟩ := w
      obtain ⟨rfl, rfl⟩ : e = 0 ∧ m = 0 := hz
      rfl
    rw [e, fconv_zero T.wide T.fmt (wide_ew T) hew]
    refine ⟨?_, Vprec.val_zero _ _⟩
    have := expInf_ge T.fmt hew
    unfold Bits.Fin zeroBits
    simp only
    omega
  · intro h1 h2
    obtain ⟨w1, w2⟩ := host_rel T.wide (wide_ew T) r w hw
      (le_trans (zpow_le_zpow_right₀ (by norm_num) r3) h1)
      (lt_of_lt_of_le h2 (zpow_le_zpow_right₀ (by norm_num) (by omega)))
    have hu : (2 : ℚ) ^ (-(T.wide.mw : ℤ) - 1) ≤ 1 / 2 := by
      have : (2 : ℚ) ^ (-(T.wide.mw : ℤ) - 1) ≤ 2 ^ (-1 : ℤ) := zpow_le_zpow_right₀ (by norm_num) (by omega)
      norm_num at this ⊢
      exact this
    have hr0 : 0 < |r| := lt_of_lt_of_le (zpow_pos (by norm_num) _) h1
    have hwlo : |r| / 2 ≤ |w.val T.wide| := by
      have := abs_sub_abs_le_abs_sub r (w.val T.wide)
      rw [abs_sub_comm] at this
      have := mul_le_mul_of_nonneg_left hu hr0.le
      linarith
    have hwhi : |w.val T.wide| ≤ |r| * (3 / 2) := by
      have := abs_sub_abs_le_abs_sub (w.val T.wide) r
      have := mul_le_mul_of_nonneg_left hu hr0.le
      linarith
    have e3 : (2 : ℚ) ^ (3 - (T.fmt.bias : ℤ)) = 2 ^ (1 - (T.fmt.bias : ℤ)) * 4 := by
      rw [show 3 - (T.fmt.bias : ℤ) = 1 - T.fmt.bias + 2 by ring, zpow_add₀ (by norm_num)]; norm_num
    have e4 : (2 : ℚ) ^ (T.fmt.bias : ℤ) = 2 ^ ((T.fmt.bias : ℤ) - 2) * 4 := by
      conv_lhs => rw [show (T.fmt.bias : ℤ) = T.fmt.bias - 2 + 2 by ring, zpow_add₀ (by norm_num)]
      norm_num
    have p1 : (0 : ℚ) < 2 ^ (1 - (T.fmt.bias : ℤ)) := zpow_pos (by norm_num) _
    have p2 : (0 : ℚ) < 2 ^ ((T.fmt.bias : ℤ) - 2) := zpow_pos (by norm_num) _
    obtain ⟨z1, z2⟩ := hN.near w z hw.wf w1 h
      (le_trans (zpow_le_zpow_right₀ (by norm_num) (show wideLow T ≤ 1 - (T.fmt.bias : ℤ) by omega)) (by linarith))
      (lt_of_lt_of_le (show |w.val T.wide| < 2 ^ (T.fmt.bias : ℤ) by linarith) (zpow_le_zpow_right₀ (by norm_num) (by omega)))
    have d1 : δ * |w.val T.wide| ≤ 1 / 2 * |w.val T.wide| := mul_le_mul_of_nonneg_right hδ2 (abs_nonneg _)
    have hzlo : |r| / 4 ≤ |z.val T.wide| := by
      have := abs_sub_abs_le_abs_sub (w.val T.wide) (z.val T.wide)
      rw [abs_sub_comm] at this
      linarith
    have hzhi : |z.val T.wide| < 2 ^ (T.fmt.bias : ℤ) := by
      have := abs_sub_abs_le_abs_sub (z.val T.wide) (w.val T.wide)
      linarith
    obtain ⟨c1, c2, -, c4⟩ := fconv_round T.wide T.fmt hew z z1 (le_trans hzhi.le (le_maxVal T.fmt))
    have y3 := near_rel T.fmt hew (z.val T.wide) _ c4 (by linarith) hzhi
    exact ⟨c2, three_errors w2 z2 y3 hδ (zpow_pos (by norm_num) _).le⟩

/-- Perturbations with a relative bound make results with a relative bound. -/
theorem mca_relative (cfg : Mca.Ctx) (hd : cfg.daz = false) (hf : cfg.ftz = false) (δ : Mca.Ty → ℚ)
    (hδ : ∀ T, 0 ≤ δ T ∧ δ T ≤ 1 / 2) (N : Mca.Ty → Bits → Bits → Prop) (hN : ∀ T, Relative T (δ T) (N T))
    (o : Wrapper.OpId) (x : List (BitVec 64)) (y : Bits) (h : McaContract cfg N o x y) : RelContract cfg.mode δ o x y := by
  rcases o with ⟨a, p⟩ | p | p | _
  · obtain ⟨args, z, h1, h2, h3⟩ := h
    let T := mcaTy p
    let A := operand T.fmt x 0
    let B := operand T.fmt x 1
    intro (fA : A.Fin T.fmt) (fB : B.Fin T.fmt)
    have hT : fmtOf p = T.fmt := fmtOf_eq p
    have wA : A.WF T.fmt := operand_wf _ _ _
    have wB : B.WF T.fmt := operand_wf _ _ _
    have hops : ((operandsOf (.arith a p) x).map fun c => fconv (workTy (.arith a p)).fmt (workTy (.arith a p)).wide
        (if cfg.daz then Mca.flush c else c)) = [fconv T.fmt T.wide A, fconv T.fmt T.wide B] := by
      simp only [operandsOf, hd, Bool.false_eq_true, if_false, List.map_cons, List.map_nil, hT]
      rfl
    rw [hops] at h1
    have hy : y = fconv T.wide T.fmt z := by
      have : resultFmt (.arith a p) = T.fmt := hT
      rw [h3, hf, this]
      simp only [Bool.false_eq_true, if_false]
      exact fconv_idem _ _ (fmt_mw T) (by cases T <;> decide) _
    have key : ∃ c d, args = [c, d] ∧
        (c.WF T.wide ∧ c.Fin T.wide ∧ |c.val T.wide - A.val T.fmt| ≤
          (if cfg.mode = .pb ∨ cfg.mode = .mca then δ T else 0) * |A.val T.fmt|) ∧
        (d.WF T.wide ∧ d.Fin T.wide ∧ |d.val T.wide - B.val T.fmt| ≤
          (if cfg.mode = .pb ∨ cfg.mode = .mca then δ T else 0) * |B.val T.fmt|) := by
      by_cases hm : cfg.mode = .pb ∨ cfg.mode = .mca
      · rw [if_pos hm] at h1 ⊢
        cases h1 with
        | cons n1 h1 =>
          cases h1 with
          | cons n2 h1 =>
            cases h1
            exact ⟨_, _, rfl, operand_relative T _ _ (hN T) A _ wA fA n1,
              operand_relative T _ _ (hN T) B _ wB fB n2⟩
      · rw [if_neg hm] at h1 ⊢
        exact ⟨_, _, h1, operand_relative T 0 _ (eq_relative T) A _ wA fA rfl,
          operand_relative T 0 _ (eq_relative T) B _ wB fB rfl⟩
    obtain ⟨c, d, rfl, ⟨c1, c2, c3⟩, d1, d2, d3⟩ := key
    refine ⟨c.val T.wide, d.val T.wide, c3, d3, fun hdiv => ?_⟩
    show (realOp a (c.val T.wide) (d.val T.wide) = 0 → y.Fin T.fmt ∧ y.val T.fmt = 0) ∧
      ((2 : ℚ) ^ (3 - (T.fmt.bias : ℤ)) ≤ |realOp a (c.val T.wide) (d.val T.wide)| →
        |realOp a (c.val T.wide) (d.val T.wide)| < 2 ^ ((T.fmt.bias : ℤ) - 2) → y.Fin T.fmt ∧
          |y.val T.fmt - realOp a (c.val T.wide) (d.val T.wide)| ≤
            opError T (if cfg.mode = .rr ∨ cfg.mode = .mca then δ T else 0) * |realOp a (c.val T.wide) (d.val T.wide)|)
    have host := wide_host T a p c d c2 d2 hdiv
    rw [hy]
    by_cases hm : cfg.mode = .rr ∨ cfg.mode = .mca
    · rw [if_pos hm] at h2 ⊢
      exact result_relative T (δ T) (hδ T).1 (hδ T).2 _ (hN T) _ _ z host h2
    · rw [if_neg hm] at h2 ⊢
      exact result_relative T 0 le_rfl (by norm_num) _ (eq_relative T) _ _ z host h2
  · trivial
  · obtain ⟨args, z, h1, h2, h3⟩ := h
    let T := mcaTy p
    let A := operand T.fmt x 0
    let B := operand T.fmt x 1
    let C := operand T.fmt x 2
    intro (fA : A.Fin T.fmt) (fB : B.Fin T.fmt) (fC : C.Fin T.fmt)
    have hT : fmtOf p = T.fmt := fmtOf_eq p
    have wA : A.WF T.fmt := operand_wf _ _ _
    have wB : B.WF T.fmt := operand_wf _ _ _
    have wC : C.WF T.fmt := operand_wf _ _ _
    have hops : ((operandsOf (.fma p) x).map fun c => fconv (workTy (.fma p)).fmt (workTy (.fma p)).wide
        (if cfg.daz then Mca.flush c else c)) = [fconv T.fmt T.wide A, fconv T.fmt T.wide B, fconv T.fmt T.wide C] := by
      simp only [operandsOf, hd, Bool.false_eq_true, if_false, List.map_cons, List.map_nil, hT]
      rfl
    rw [hops] at h1
    have hy : y = fconv T.wide T.fmt z := by
      have : resultFmt (.fma p) = T.fmt := hT
      rw [h3, hf, this]
      simp only [Bool.false_eq_true, if_false]
      exact fconv_idem _ _ (fmt_mw T) (by cases T <;> decide) _
    have key : ∃ c d e, args = [c, d, e] ∧
        (c.WF T.wide ∧ c.Fin T.wide ∧ |c.val T.wide - A.val T.fmt| ≤
          (if cfg.mode = .pb ∨ cfg.mode = .mca then δ T else 0) * |A.val T.fmt|) ∧
        (d.WF T.wide ∧ d.Fin T.wide ∧ |d.val T.wide - B.val T.fmt| ≤
          (if cfg.mode = .pb ∨ cfg.mode = .mca then δ T else 0) * |B.val T.fmt|) ∧
        (e.WF T.wide ∧ e.Fin T.wide ∧ |e.val T.wide - C.val T.fmt| ≤
          (if cfg.mode = .pb ∨ cfg.mode = .mca then δ T else 0) * |C.val T.fmt|) := by
      by_cases hm : cfg.mode = .pb ∨ cfg.mode = .mca
      · rw [if_pos hm] at h1 ⊢
        cases h1 with
        | cons n1 h1 =>
          cases h1 with
          | cons n2 h1 =>
            cases h1 with
            | cons n3 h1 =>
              cases h1
              exact ⟨_, _, _, rfl, operand_relative T _ _ (hN T) A _ wA fA n1, operand_relative T _ _ (hN T) B _ wB fB n2,
                operand_relative T _ _ (hN T) C _ wC fC n3⟩
      · rw [if_neg hm] at h1 ⊢
        exact ⟨_, _, _, h1, operand_relative T 0 _ (eq_relative T) A _ wA fA rfl,
          operand_relative T 0 _ (eq_relative T) B _ wB fB rfl, operand_relative T 0 _ (eq_relative T) C _ wC fC rfl⟩
    obtain ⟨c, d, e, rfl, ⟨c1, c2, c3⟩, ⟨d1, d2, d3⟩, e1, e2, e3⟩ := key
    have host : Vprec.Host T.wide (c.val T.wide * d.val T.wide + e.val T.wide) (wideOp (.fma p) T.wide [c, d, e]) :=
      host_ffma T.wide (wide_ew T) (by cases T <;> decide) c d e c2 d2 e2
    refine ⟨c.val T.wide, d.val T.wide, e.val T.wide, c3, d3, e3, ?_⟩
    show (c.val T.wide * d.val T.wide + e.val T.wide = 0 → y.Fin T.fmt ∧ y.val T.fmt = 0) ∧
      ((2 : ℚ) ^ (3 - (T.fmt.bias : ℤ)) ≤ |c.val T.wide * d.val T.wide + e.val T.wide| →
        |c.val T.wide * d.val T.wide + e.val T.wide| < 2 ^ ((T.fmt.bias : ℤ) - 2) → y.Fin T.fmt ∧
          |y.val T.fmt - (c.val T.wide * d.val T.wide + e.val T.wide)| ≤
            opError T (if cfg.mode = .rr ∨ cfg.mode = .mca then δ T else 0) * |c.val T.wide * d.val T.wide + e.val T.wide|)
    rw [hy]
    by_cases hm : cfg.mode = .rr ∨ cfg.mode = .mca
    · rw [if_pos hm] at h2 ⊢
      exact result_relative T (δ T) (hδ T).1 (hδ T).2 _ (hN T) _ _ z host h2
    · rw [if_neg hm] at h2 ⊢
      exact result_relative T 0 le_rfl (by norm_num) _ (eq_relative T) _ _ z host h2
  · trivial

theorem Meets.mono {fl : Flags} {C D : Contract} {bs : List (Wrapper.Backend σ κ)} {ctx : Nat → κ} (h : Meets fl C bs ctx)
    (hCD : ∀ o x y, C o x y → D o x y) : Meets fl D bs ctx := by
  intro o ho x s
  obtain ⟨y, h1, h2, h3⟩ := h o ho x s
  exact ⟨y, h1, h2, hCD o x y h3⟩

theorem pow_half (t : Nat) (ht : 2 ≤ t) : (2 : ℚ) ^ (1 - (t : ℤ)) ≤ 1 / 2 := by
  have : (2 : ℚ) ^ (1 - (t : ℤ)) ≤ 2 ^ (-1 : ℤ) := zpow_le_zpow_right₀ (by norm_num) (by omega)
  norm_num at this ⊢
  exact this

/-- **C96** In relative terms, integer MCA at precision `t` changes numbers by `2^(1-t)` at most. -/
theorem C96_int_relative_partial (g : Mca.Gen σ) (cfg : Mca.Ctx) (hd : cfg.daz = false) (hf : cfg.ftz = false) (t : Mca.Ty → Nat)
    (hp : ∀ T, cfg.prec T = t T) (ht : ∀ T, 2 ≤ t T ∧ t T ≤ T.wide.mw) (fl : Flags) (hfc : fl.fcmp = false)
    (bs : List (Wrapper.Backend σ κ)) (ctx : Nat → κ) :
    Meets fl (RelContract cfg.mode fun T => 2 ^ (1 - (t T : ℤ))) (bs ++ [mcaIntBackend .wrap g cfg]) ctx :=
  (C96_int_partial g cfg t hp (fun T => ⟨by have := (ht T).1; omega, (ht T).2⟩) fl hfc bs ctx).mono
    (mca_relative cfg hd hf _ (fun T => ⟨(zpow_pos (by norm_num) _).le, pow_half _ (ht T).1⟩) _ fun T => int_relative _ T (t T))

/-- **C96** In relative terms, the quad backend changes numbers by `2^-t + 2^-mw` at most. -/
theorem C96_quad_relative_partial (g : Mca.Gen σ) (hg : ∀ s, Mca.drawn (g.next s).1 ≠ 2 ^ 51) (cfg : Mca.Ctx)
    (hr : cfg.relErr = true) (hb : cfg.absErr = false) (hd : cfg.daz = false) (hf : cfg.ftz = false) (t : Mca.Ty → Nat)
    (hp : ∀ T, cfg.prec T = t T) (ht : ∀ T, 2 ≤ t T ∧ t T ≤ T.wide.mw + 1) (fl : Flags) (hfc : fl.fcmp = false)
    (bs : List (Wrapper.Backend σ κ)) (ctx : Nat → κ) :
    Meets fl (RelContract cfg.mode fun T => 2 ^ (-(t T : ℤ)) + 2 ^ (-(T.wide.mw : ℤ)))
      (bs ++ [mcaBackend (Mca.quadPerturb g) g cfg]) ctx := by
  refine (C96_quad_partial g hg cfg hr hb t hp (fun T => by have := (ht T).1; omega) fl hfc bs ctx).mono
    (mca_relative cfg hd hf _ (fun T => ⟨(add_pos (zpow_pos (by norm_num) _) (zpow_pos (by norm_num) _)).le, ?_⟩) _
      fun T => quad_relative _ T (t T) (ht T).2)
  have h1 : (2 : ℚ) ^ (-(t T : ℤ)) ≤ 2 ^ (-2 : ℤ) := zpow_le_zpow_right₀ (by norm_num) (by have := (ht T).1; omega)
  have h2 : (2 : ℚ) ^ (-(T.wide.mw : ℤ)) ≤ 2 ^ (-2 : ℤ) := zpow_le_zpow_right₀ (by norm_num) (by cases T <;> decide)
  norm_num at h1 h2 ⊢
  linarith

/-! ## A function -/

theorem operand_lane (y : Bits) (hy : y.WF b64) (v : Nat) (h : lane 64 v 0 = image b64 y) (l : List (BitVec 64)) (k : Nat)
    (hk : l.getD k 0 = lane 64 v 0) : operand b64 l k = y := by
  have hw := word_lt b64 y hy
  have e2 : b64.width = 64 := rfl
  rw [e2] at hw
  unfold operand
  rw [hk, h, image, BitVec.toNat_ofNat, Nat.mod_eq_of_lt hw]
  exact ofWord_word b64 y hy

theorem lane_word (y : Bits) (hy : y.WF b64) : lane 64 (word b64 y) 0 = image b64 y := by
  have hw := word_lt b64 y hy
  have e2 : b64.width = 64 := rfl
  rw [e2] at hw
  unfold lane image
  rw [Nat.mul_zero, Nat.pow_zero, Nat.div_one, Nat.mod_eq_of_lt hw]

theorem opError_le (T : Mca.Ty) (δ : ℚ) (h : δ ≤ 1 / 2) : opError T δ ≤ 3 / 4 := by
  unfold opError
  have e1 : (2 : ℚ) ^ (-(T.wide.mw : ℤ) - 1) ≤ 2 ^ (-10 : ℤ) := zpow_le_zpow_right₀ (by norm_num) (by cases T <;> decide)
  have e2 : (2 : ℚ) ^ (-(T.fmt.mw : ℤ) - 1) ≤ 2 ^ (-10 : ℤ) := zpow_le_zpow_right₀ (by norm_num) (by cases T <;> decide)
  have p1 : (0 : ℚ) < 2 ^ (-(T.wide.mw : ℤ) - 1) := zpow_pos (by norm_num) _
  have p2 : (0 : ℚ) < 2 ^ (-(T.fmt.mw : ℤ) - 1) := zpow_pos (by norm_num) _
  generalize (2 : ℚ) ^ (-(T.wide.mw : ℤ) - 1) = u at *
  generalize (2 : ℚ) ^ (-(T.fmt.mw : ℤ) - 1) = v at *
  norm_num at e1 e2
  have a1 : (1 + u) * (1 + δ) ≤ (1 + 1 / 1024) * (3 / 2) := by nlinarith
  nlinarith

/-- The square of a number known up to a relative error, computed with the same relative error. -/
theorem square_error {S y1 y ε : ℚ} (h0 : 0 ≤ ε) (h1 : |y1 - S| ≤ ε * |S|) (h2 : |y - y1 * y1| ≤ ε * |y1 * y1|) :
    |y - S * S| ≤ ((1 + ε) ^ 3 - 1) * (S * S) := by
  have hy1 : |y1| ≤ (1 + ε) * |S| := by
    have := abs_sub_abs_le_abs_sub y1 S
    linarith
  have hs : |S| * |S| = S * S := abs_mul_abs_self S
  have e : y - S * S = (y - y1 * y1) + (y1 - S) * (y1 + S) := by ring
  have t1 : |(y1 - S) * (y1 + S)| ≤ ε * |S| * ((2 + ε) * |S|) := by
    rw [abs_mul]
    refine mul_le_mul h1 ?_ (abs_nonneg _) (by positivity)
    have := abs_add_le y1 S
    linarith
  have t2 : |y1 * y1| ≤ (1 + ε) * |S| * ((1 + ε) * |S|) := by
    rw [abs_mul]
    exact mul_le_mul hy1 hy1 (abs_nonneg _) (by positivity)
  have t3 : ε * |y1 * y1| ≤ ε * ((1 + ε) * |S| * ((1 + ε) * |S|)) := mul_le_mul_of_nonneg_left t2 h0
  rw [e]
  refine le_trans (abs_add_le _ _) (le_trans (add_le_add (le_trans h2 t3) t1) (le_of_eq ?_))
  rw [← hs]
  ring

/-- In rr mode, the error of an operation on doubles. -/
theorem rr_double (δ : Mca.Ty → ℚ) (a : Wrapper.Arith) (ha : a ≠ .div) (x : List (BitVec 64)) (y A B : Bits)
    (hA : operand b64 x 0 = A) (hB : operand b64 x 1 = B) (fA : A.Fin b64) (fB : B.Fin b64)
    (h : RelContract .rr δ (.arith a .double) x y) (h1 : (2 : ℚ) ^ (-1020 : ℤ) ≤ |realOp a (A.val b64) (B.val b64)|)
    (h2 : |realOp a (A.val b64) (B.val b64)| < 2 ^ (1021 : ℤ)) :
    y.Fin b64 ∧ |y.val b64 - realOp a (A.val b64) (B.val b64)| ≤
      opError .f64 (δ .f64) * |realOp a (A.val b64) (B.val b64)| := by
  subst hA hB
  obtain ⟨A', B', eA, eB, c⟩ := h fA fB
  rw [if_neg (by simp), zero_mul] at eA eB
  obtain rfl := sub_eq_zero.1 (abs_eq_zero.1 (le_antisymm eA (abs_nonneg _)))
  obtain rfl := sub_eq_zero.1 (abs_eq_zero.1 (le_antisymm eB (abs_nonneg _)))
  obtain ⟨-, c⟩ := c (fun h => absurd h ha)
  rw [if_pos (by simp)] at c
  exact c h1 h2

/-- **C96** on a program: `(a + b)²` compiled with Verificarlo and run with integer MCA in rr mode at precision `t` is within
`(1 + ε)³ - 1` of the real `(a + b)²`, relatively, `ε` being the error of one operation, whatever the numbers drawn. -/
theorem C96_program_partial (rest : Instr → Nat → List Nat → Nat) (other : Wrapper.Backend Nat Unit) (g : Mca.Gen Nat)
    (cfg : Mca.Ctx) (hm : cfg.mode = .rr) (hd : cfg.daz = false) (hf : cfg.ftz = false) (t : Mca.Ty → Nat)
    (hp : ∀ T, cfg.prec T = t T) (ht : ∀ T, 2 ≤ t T ∧ t T ≤ T.wide.mw)
    (F' : Func (Nat × Nat)) (h : replaceAll doubles ⟨false, false, false⟩ squareOfSum [3, 2] = .ok F')
    (A B : Bits) (wA : A.WF b64) (wB : B.WF b64) (fA : A.Fin b64) (fB : B.Fin b64)
    (h1 : (2 : ℚ) ^ (-500 : ℤ) ≤ |A.val b64 + B.val b64|) (h2 : |A.val b64 + B.val b64| < 2 ^ (500 : ℤ)) (p s : Nat) :
    ∃ y : Bits, y.WF b64 ∧ y.Fin b64 ∧
      (run (exec (linked ieee rest ([other] ++ [mcaIntBackend .wrap g cfg]) (fun _ => ()))) F' 1
        (enter 2 (fun n => if n = 0 then word b64 A else word b64 B) (p, s), some 0)).1.mem.1 = word b64 y ∧
      |y.val b64 - (A.val b64 + B.val b64) ^ 2| ≤
        ((1 + opError .f64 (2 ^ (1 - (t .f64 : ℤ)))) ^ 3 - 1) * (A.val b64 + B.val b64) ^ 2 := by
  obtain ⟨st, hr, hmem⟩ := C94_contract_partial doubles ⟨false, false, false⟩ rfl (RelContract cfg.mode fun T => 2 ^ (1 - (t T : ℤ)))
    ieee rest ([other] ++ [mcaIntBackend .wrap g cfg]) (fun _ => ())
    (C96_int_relative_partial g cfg hd hf t hp ht _ rfl [other] (fun _ => ()))
    squareOfSum F' [3, 2] squareOfSum_source squareOfSum_blind (List.Perm.swap 2 3 []) h 2 (by decide) (by decide)
    (fun n => if n = 0 then word b64 A else word b64 B) (p, s) 1 (some 0)
  rw [← hmem]
  generalize (run _ _ _ _).2 = fin at hr
  have ε0 : 0 ≤ opError .f64 (2 ^ (1 - (t .f64 : ℤ))) := by
    unfold opError
    have p1 : (0 : ℚ) < 2 ^ (-(Mca.Ty.f64.wide.mw : ℤ) - 1) := zpow_pos (by norm_num) _
    have p2 : (0 : ℚ) < 2 ^ (-(Mca.Ty.f64.fmt.mw : ℤ) - 1) := zpow_pos (by norm_num) _
    have p3 : (0 : ℚ) < 2 ^ (1 - (t .f64 : ℤ)) := zpow_pos (by norm_num) _
    have : 1 ≤ (1 + (2 : ℚ) ^ (-(Mca.Ty.f64.wide.mw : ℤ) - 1)) * (1 + 2 ^ (1 - (t .f64 : ℤ))) :=
      one_le_mul_of_one_le_of_one_le (by linarith) (by linarith)
    have := one_le_mul_of_one_le_of_one_le this (show (1 : ℚ) ≤ 1 + 2 ^ (-(Mca.Ty.f64.fmt.mw : ℤ) - 1) by linarith)
    linarith
  have ε1 := opError_le .f64 _ (pow_half _ (ht .f64).1)
  cases hr with
  | block hb g1 g2 =>
    obtain rfl := Option.some.inj hb
    cases g2
    dsimp only
    cases g1 with
    | cons a1 g1 =>
      cases g1 with
      | cons a2 g1 =>
        cases g1
        cases a1 with
        | native id i pred args u hn => exact absurd ⟨trivial, Or.inr rfl⟩ hn
        | op id i pred args v1 t1 b1 b2 b3 =>
          obtain ⟨op, ty, n, o, k1, k2, k3, k4, k5⟩ := b3
          obtain rfl := Option.some.inj k1
          obtain ⟨rfl, rfl⟩ := Prod.mk.inj (Option.some.inj k2)
          obtain rfl := Option.some.inj k3
          obtain ⟨y1, w1, l1, c1⟩ := k5 0 (by decide)
          cases a2 with
          | native id i pred args u hn => exact absurd ⟨trivial, Or.inr rfl⟩ hn
          | op id i pred args v2 t2 d1 d2 d3 =>
            obtain ⟨op, ty, n, o, k1, k2, k3, k4', k5⟩ := d3
            obtain rfl := Option.some.inj k1
            obtain ⟨rfl, rfl⟩ := Prod.mk.inj (Option.some.inj k2)
            obtain rfl := Option.some.inj k3
            obtain ⟨y, w2, l2, c2⟩ := k5 0 (by decide)
            have oA : operand b64 (laneArgs 64 none [word b64 A, word b64 B] 0) 0 = A :=
              operand_lane A wA _ (lane_word A wA) _ 0 rfl
            have oB : operand b64 (laneArgs 64 none [word b64 A, word b64 B] 0) 1 = B :=
              operand_lane B wB _ (lane_word B wB) _ 1 rfl
            have o1 : ∀ k, k < 2 → operand b64 (laneArgs 64 none [v1, v1] 0) k = y1 := by
              intro k hk
              refine operand_lane y1 w1 v1 l1 _ k ?_
              match k, hk with
              | 0, _ => rfl
              | 1, _ => rfl
            have c1 : RelContract cfg.mode (fun T => 2 ^ (1 - (t T : ℤ))) (.arith .add .double)
              (laneArgs 64 none [word b64 A, word b64 B] 0) y1 := c1
            have c2 : RelContract cfg.mode (fun T => 2 ^ (1 - (t T : ℤ))) (.arith .mul .double) (laneArgs 64 none [v1, v1] 0) y := c2
            rw [hm] at c1 c2
            obtain ⟨f1, c1⟩ := rr_double _ .add (by simp) _ y1 A B oA oB fA fB c1
              (le_trans (zpow_le_zpow_right₀ (by norm_num) (by norm_num)) h1)
              (lt_of_lt_of_le h2 (zpow_le_zpow_right₀ (by norm_num) (by norm_num)))
            have c2 := rr_double _ .mul (by simp) _ y y1 y1 (o1 0 (by decide)) (o1 1 (by decide)) f1 f1 c2
            simp only [realOp] at c1 c2
            generalize hS : A.val b64 + B.val b64 = S at *
            generalize opError .f64 (2 ^ (1 - (t .f64 : ℤ))) = ε at *
            have hlo : |S| / 4 ≤ |y1.val b64| := by
              have := abs_sub_abs_le_abs_sub S (y1.val b64)
              rw [abs_sub_comm] at this
              have := mul_le_mul_of_nonneg_right ε1 (abs_nonneg S)
              linarith
            have hhi : |y1.val b64| ≤ 2 * |S| := by
              have := abs_sub_abs_le_abs_sub (y1.val b64) S
              have := mul_le_mul_of_nonneg_right ε1 (abs_nonneg S)
              linarith [abs_nonneg S]
            have hlo2 : (2 : ℚ) ^ (-502 : ℤ) ≤ |y1.val b64| := by
              have : (2 : ℚ) ^ (-502 : ℤ) = 2 ^ (-500 : ℤ) * (1 / 4) := by
                rw [show (-502 : ℤ) = -500 + -2 from rfl, zpow_add₀ (by norm_num)]
                norm_num
              linarith
            have hhi2 : |y1.val b64| < 2 ^ (501 : ℤ) := by
              rw [show (501 : ℤ) = 500 + 1 from rfl, zpow_add_one₀ (by norm_num)]
              exact lt_of_le_of_lt hhi (by rw [mul_comm]; exact mul_lt_mul_of_pos_right h2 two_pos)
            have hq1 : (2 : ℚ) ^ (-1004 : ℤ) ≤ |y1.val b64 * y1.val b64| := by
              rw [abs_mul, show (-1004 : ℤ) = -502 + -502 by norm_num, zpow_add₀ (by norm_num)]
              exact mul_le_mul hlo2 hlo2 (zpow_pos (by norm_num) _).le (abs_nonneg _)
            have hq2 : |y1.val b64 * y1.val b64| < 2 ^ (1002 : ℤ) := by
              rw [abs_mul, show (1002 : ℤ) = 501 + 501 by norm_num, zpow_add₀ (by norm_num)]
              exact mul_lt_mul'' hhi2 hhi2 (abs_nonneg _) (abs_nonneg _)
            have c2 := c2 (le_trans (zpow_le_zpow_right₀ (by norm_num) (by norm_num)) hq1)
              (lt_of_lt_of_le hq2 (zpow_le_zpow_right₀ (by norm_num) (by norm_num)))
            refine ⟨y, w2, c2.1, ?_, ?_⟩
            · have hw := word_lt b64 y w2
              have e : (lane 64 v2 0).toNat = (image b64 y).toNat := congrArg BitVec.toNat l2
              simp only [lane, image, BitVec.toNat_ofNat, Nat.mul_zero, Nat.pow_zero, Nat.div_one] at e
              have e2 : b64.width = 64 := rfl
              rw [e2] at hw
              have k4 : v2 < 2 ^ 64 := k4'
              show v2 = _
              omega
            · rw [pow_two]
              exact square_error ε0 c1 c2.2
  | stop => rename_i hb; cases hb

/-- Numbers near 3 at precision 24, for the integer backend: it changes 3 by `2^-22` at most. -/
example (x' : Bits) (h : IntNear false b128 24 ⟨false, 16384, 2 ^ 111⟩ x') :
    x'.sign = false ∧ |x'.val b128 - 3| ≤ 2 ^ (-22 : ℤ) := by
  have v : (⟨false, 16384, 2 ^ 111⟩ : Bits).val b128 = 3 := by
    norm_num [Bits.val, Bits.sig, Bits.lsb, sgn, b128, Fmt.bias]
  obtain ⟨-, -, h3, h4⟩ := h.near (by decide) 1 (by rw [v]; norm_num) (by rw [v]; norm_num) (by decide) (by decide)
  rw [v] at h4
  exact ⟨h3, h4⟩

/-- `1 + 2` in double precision at precision 24: within `2^-21` of 3. -/
example (y : Bits) (h : RelContract .rr (fun _ => 2 ^ (-23 : ℤ)) (.arith .add .double) [0x3ff0000000000000, 0x4000000000000000] y) :
    y.Fin b64 ∧ |y.val b64 - 3| ≤ 2 ^ (-21 : ℤ) := by
  have v1 : (⟨false, 1023, 0⟩ : Bits).val b64 = 1 := by norm_num [Bits.val, Bits.sig, Bits.lsb, sgn, b64, Fmt.bias]
  have v2 : (⟨false, 1024, 0⟩ : Bits).val b64 = 2 := by norm_num [Bits.val, Bits.sig, Bits.lsb, sgn, b64, Fmt.bias]
  have h3 : |realOp .add ((⟨false, 1023, 0⟩ : Bits).val b64) ((⟨false, 1024, 0⟩ : Bits).val b64)| = 3 := by
    rw [v1, v2]; norm_num [realOp]
  have lo : (2 : ℚ) ^ (3 - (b64.bias : ℤ)) ≤ 2 ^ (0 : ℤ) := zpow_le_zpow_right₀ (by norm_num) (by decide)
  have hi : (2 : ℚ) ^ (2 : ℤ) ≤ 2 ^ ((b64.bias : ℤ) - 2) := zpow_le_zpow_right₀ (by norm_num) (by decide)
  have a1 : operand b64 [0x3ff0000000000000, 0x4000000000000000] 0 = ⟨false, 1023, 0⟩ := by decide +kernel
  have a2 : operand b64 [0x3ff0000000000000, 0x4000000000000000] 1 = ⟨false, 1024, 0⟩ := by decide +kernel
  obtain ⟨hy, he⟩ := rr_double (fun _ => 2 ^ (-23 : ℤ)) .add (by decide) _ y _ _ a1 a2 (by decide) (by decide) h
    (le_trans lo (by rw [h3]; norm_num)) (lt_of_lt_of_le (by rw [h3]; norm_num) hi)
  refine ⟨hy, ?_⟩
  rw [h3, v1, v2] at he
  norm_num [realOp, opError, Mca.Ty.wide, Mca.Ty.fmt, b64, b128] at he ⊢
  linarith

/-- `C96_program_partial` with `a = 1`, `b = 2` at precision 24: the result is within `2^-17` of 9. -/
example (rest : Instr → Nat → List Nat → Nat) (other : Wrapper.Backend Nat Unit) (g : Mca.Gen Nat) (F' : Func (Nat × Nat))
    (h : replaceAll doubles ⟨false, false, false⟩ squareOfSum [3, 2] = .ok F') (p s : Nat) :
    ∃ y : Bits, y.WF b64 ∧ y.Fin b64 ∧
      (run (exec (linked ieee rest ([other] ++ [mcaIntBackend .wrap g { Mca.init with mode := .rr, prec64 := 24 }]) (fun _ => ())))
        F' 1 (enter 2 (fun n => if n = 0 then 0x3ff0000000000000 else 0x4000000000000000) (p, s), some 0)).1.mem.1 = word b64 y ∧
      |y.val b64 - 9| ≤ 2 ^ (-17 : ℤ) := by
  have v1 : (⟨false, 1023, 0⟩ : Bits).val b64 = 1 := by norm_num [Bits.val, Bits.sig, Bits.lsb, sgn, b64, Fmt.bias]
  have v2 : (⟨false, 1024, 0⟩ : Bits).val b64 = 2 := by norm_num [Bits.val, Bits.sig, Bits.lsb, sgn, b64, Fmt.bias]
  have lo : (2 : ℚ) ^ (-500 : ℤ) ≤ 2 ^ (0 : ℤ) := zpow_le_zpow_right₀ (by norm_num) (by decide)
  have hi : (2 : ℚ) ^ (2 : ℤ) ≤ 2 ^ (500 : ℤ) := zpow_le_zpow_right₀ (by norm_num) (by decide)
  have h3 : |(⟨false, 1023, 0⟩ : Bits).val b64 + (⟨false, 1024, 0⟩ : Bits).val b64| = 3 := by rw [v1, v2]; norm_num
  obtain ⟨y, y1, y2, y3, y4⟩ := C96_program_partial rest other g { Mca.init with mode := .rr, prec64 := 24 } rfl rfl rfl
    (fun _ => 24) (fun T => by cases T <;> rfl) (fun T => by cases T <;> decide) F' h ⟨false, 1023, 0⟩ ⟨false, 1024, 0⟩
    (by decide) (by decide) (by decide) (by decide)
    (le_trans lo (by rw [h3]; norm_num)) (lt_of_lt_of_le (by rw [h3]; norm_num) hi) p s
  refine ⟨y, y1, y2, ?_, ?_⟩
  · rw [← y3]
    have e1 : word b64 ⟨false, 1023, 0⟩ = 0x3ff0000000000000 := by decide
    have e2 : word b64 ⟨false, 1024, 0⟩ = 0x4000000000000000 := by decide
    rw [e1, e2]
  · rw [v1, v2] at y4
    norm_num [opError, Mca.Ty.wide, Mca.Ty.fmt, b64, b128] at y4 ⊢
    linarith

/-- The quad backend in rr mode with the generator that only draws one half. -/
def halves (κ : Type) : Wrapper.Backend Unit κ :=
  mcaBackend (Mca.quadPerturb ⟨fun _ => (0x8000000000000000#64, ())⟩) ⟨fun _ => (0x8000000000000000#64, ())⟩
    { Mca.init with mode := .rr }

theorem halves_sum : (Wrapper.scalar [halves Unit] (fun _ => ()) (.arith .add .float) [0x3f800000, 0x33800000] ()).1 =
    some 0x7f800000 := by
  decide +kernel

/-- **C96 fails** for the quad backend when one half is drawn: no bound on the error is kept, the `float` sum of 1 and `2^-24`
being infinite. -/
theorem C96_half_wrong (δ : Mca.Ty → ℚ) :
    ¬ Meets ⟨false, false, false⟩ (RelContract .rr δ) [halves Unit] (fun _ => ()) := by
  intro h
  obtain ⟨y, hw, hy, hc⟩ := h (.arith .add .float) rfl [0x3f800000, 0x33800000] ()
  rw [halves_sum] at hy
  have a1 : operand b32 [0x3f800000, 0x33800000] 0 = ⟨false, 127, 0⟩ := by decide +kernel
  have a2 : operand b32 [0x3f800000, 0x33800000] 1 = ⟨false, 103, 0⟩ := by decide +kernel
  obtain ⟨A', B', eA, eB, c⟩ := hc (show (operand b32 _ 0).Fin b32 by rw [a1]; decide) (show (operand b32 _ 1).Fin b32 by rw [a2]; decide)
  rw [if_neg (by simp), zero_mul] at eA eB
  obtain rfl := sub_eq_zero.1 (abs_eq_zero.1 (le_antisymm eA (abs_nonneg _)))
  obtain rfl := sub_eq_zero.1 (abs_eq_zero.1 (le_antisymm eB (abs_nonneg _)))
  have v1 : (operand b32 [0x3f800000, 0x33800000] 0).val b32 = 1 := by
    rw [a1]; norm_num [Bits.val, Bits.sig, Bits.lsb, sgn, b32, Fmt.bias]
  have v2 : (operand b32 [0x3f800000, 0x33800000] 1).val b32 = 2 ^ (-24 : ℤ) := by
    rw [a2]; norm_num [Bits.val, Bits.sig, Bits.lsb, sgn, b32, Fmt.bias]
  have h3 : |realOp .add ((operand b32 [0x3f800000, 0x33800000] 0).val b32) ((operand b32 [0x3f800000, 0x33800000] 1).val b32)| =
      1 + 2 ^ (-24 : ℤ) := by
    rw [v1, v2]; norm_num [realOp]
  have lo : (2 : ℚ) ^ (3 - (b32.bias : ℤ)) ≤ 2 ^ (0 : ℤ) := zpow_le_zpow_right₀ (by norm_num) (by decide)
  have hi : (2 : ℚ) ^ (2 : ℤ) ≤ 2 ^ ((b32.bias : ℤ) - 2) := zpow_le_zpow_right₀ (by norm_num) (by decide)
  have b1 : (2 : ℚ) ^ (3 - (b32.bias : ℤ)) ≤ 1 + 2 ^ (-24 : ℤ) := le_trans lo (by norm_num)
  have b2 : (1 : ℚ) + 2 ^ (-24 : ℤ) < 2 ^ ((b32.bias : ℤ) - 2) := lt_of_lt_of_le (by norm_num) hi
  rw [← h3] at b1 b2
  have hf : y.Fin b32 := ((c (fun h => by cases h)).2 b1 b2).1
  have e : y = ofWord b32 0x7f800000 := by
    have hw2 : y.WF b32 := hw
    have hl := word_lt b32 y hw2
    rw [← ofWord_word b32 y hw2]
    have := congrArg BitVec.toNat (Option.some.inj hy)
    change (0x7f800000 : Nat) = (image b32 y).toNat at this
    unfold image at this
    rw [BitVec.toNat_ofNat, Nat.mod_eq_of_lt (lt_of_lt_of_le hl (by decide))] at this
    rw [← this]
  rw [e] at hf
  exact absurd hf (by decide)

end Verif.Pass
