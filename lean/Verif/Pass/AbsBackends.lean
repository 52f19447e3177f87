import Verif.Pass.AbsProps
import Verif.Vprec.AbsTotal

/-!
# Property C112: the backends

The errors of operations with the backends, as the analysis of C112 takes them: the IEEE backend with results that underflow, the
cancellation backend with sums that cancel, VPREC with a bound on absolute errors, and all the contracts of C98.
-/

namespace Verif.Pass.Mix.Gen
open Verif Verif.Fp

variable {K σ κ : Type}

/-! ## The backends of C98 -/

/-- A contract with relative errors only. -/
theorem signed_abs (p : Wrapper.Prec) (inn : Nat) (η : ℚ) (I R : Range) (o : Wrapper.OpId) (x : List (BitVec 64)) (y : Bits)
    (h : SignedContract p inn η I R o x y) : AbsContract p inn η η 0 (ofRange I) (ofRange R) (ofRange R) o x y := by
  have hI : ∀ z, (ofRange I).Ok z → I.Ok z := by
    rintro z (hz | hz)
    · exact Or.inl hz.2
    · exact Or.inr ⟨hz.2 _ rfl, hz.1⟩
  rcases o with ⟨a, q⟩ | q | q | _
  · rintro rfl fA fB iA iB
    obtain ⟨A', B', eA, eB, c⟩ := h rfl fA fB (hI _ iA) (hI _ iB)
    refine ⟨A', B', by rw [add_zero, ← mul_assoc]; exact eA, by rw [add_zero, ← mul_assoc]; exact eB, fun hB => ?_⟩
    simp only [ite_self]
    refine ⟨fun _ hz => ?_, fun hz => ?_⟩
    · obtain ⟨fy, ey⟩ := c hB (Or.inl hz)
      rw [hz, abs_zero, mul_zero, sub_zero] at ey
      exact ⟨fy, abs_eq_zero.1 (le_antisymm ey (abs_nonneg _))⟩
    · obtain ⟨fy, ey⟩ := c hB (Or.inr ⟨hz.2 _ rfl, hz.1⟩)
      exact ⟨fy, by rw [add_zero]; exact ey⟩
  · trivial
  · rintro rfl fA fB fC iA iB iC
    obtain ⟨A', B', C', eA, eB, eC, c⟩ := h rfl fA fB fC (hI _ iA) (hI _ iB) (hI _ iC)
    refine ⟨A', B', C', by rw [add_zero, ← mul_assoc]; exact eA, by rw [add_zero, ← mul_assoc]; exact eB,
      by rw [add_zero, ← mul_assoc]; exact eC, fun _ hz => ?_, fun hz => ?_⟩
    · obtain ⟨fy, ey⟩ := c (Or.inl hz)
      rw [hz, abs_zero, mul_zero, sub_zero] at ey
      exact ⟨fy, abs_eq_zero.1 (le_antisymm ey (abs_nonneg _))⟩
    · obtain ⟨fy, ey⟩ := c (Or.inr ⟨hz.2 _ rfl, hz.1⟩)
      exact ⟨fy, by rw [add_zero]; exact ey⟩
  · trivial

/-! ## The machine -/

/-- The results of the machine, however small. -/
theorem machine_abs (p : Wrapper.Prec) (I : Band) (o : Wrapper.OpId) (x : List (BitVec 64)) (y : Bits) (h : MachineContract o x y) :
    AbsContract p 0 (unit p) (unit p) (tiny p) I (hostBand p) (hostBand p) o x y := by
  have hb : ∀ z w, Vprec.Host (fmtOf p) z w → ((hostBand p).zero = true → z = 0 → w.Fin (fmtOf p) ∧ w.val (fmtOf p) = 0) ∧
      ((hostBand p).Has z → w.Fin (fmtOf p) ∧ |w.val (fmtOf p) - z| ≤ unit p * |z| + tiny p) := by
    intro z w hw
    refine ⟨fun _ hz => ?_, fun hz => host_abs (fmtOf p) (by cases p <;> decide) z w hw hz.1⟩
    subst hz
    exact host_zero (fmtOf p) w hw
  rcases o with ⟨a, q⟩ | q | q | _
  · rintro rfl fA fB - -
    obtain rfl := h
    refine ⟨(operand (fmtOf q) x 0).val (fmtOf q), (operand (fmtOf q) x 1).val (fmtOf q), by simp, by simp, fun hB => ?_⟩
    simp only [ite_self]
    exact hb _ _ (machine_host q a _ _ fA fB hB)
  · trivial
  · rintro rfl fA fB fC - - -
    obtain rfl := h
    exact ⟨(operand (fmtOf q) x 0).val (fmtOf q), (operand (fmtOf q) x 1).val (fmtOf q), (operand (fmtOf q) x 2).val (fmtOf q), by simp, by simp, by simp,
      hb _ _ (host_ffma (fmtOf q) (by cases q <;> decide) (by cases q <;> decide) _ _ _ fA fB fC)⟩
  · trivial

/-- **C112** The IEEE backend: half a unit in the last place, or half the smallest number. -/
theorem C112_ieee_partial (p : Wrapper.Prec) (count : Ieee.Op → σ → σ) (fl : Flags) (hfc : fl.fcmp = false) (I : Band)
    (bs : List (Wrapper.Backend σ κ)) (ctx : Nat → κ) :
    Meets fl (AbsContract p 0 (unit p) (unit p) (tiny p) I (hostBand p) (hostBand p)) (bs ++ [ieeeBackend count]) ctx := by
  have hmw : ∀ p, 1 ≤ (fmtOf p).mw := by intro p; cases p <;> decide
  refine Meets.mono (C := MachineContract) (meets_last fl _ _ (fun o ho => ?_) bs ctx) (machine_abs p _)
  rcases o with ⟨a, q⟩ | q | q | _
  · exact ⟨_, rfl, fun x k s => ⟨_, _, operatorC_wf _ (hmw q) _ _ (operand_wf _ _ _) (operand_wf _ _ _) a, rfl, fun c => rfl⟩⟩
  · simp [Wrapper.emitted, hfc] at ho
  · exact ⟨_, rfl, fun x k s => ⟨_, _, ffma_wf _ (hmw q) _ _ _ (operand_wf _ _ _), rfl, fun c => rfl⟩⟩
  · exact ⟨_, rfl, fun x k s => ⟨_, _, fconv_wf _ _ (by decide) _, trivial, fun c => rfl⟩⟩

/-! ## Cancellation -/

/-- A number with a positive exponent field. -/
theorem abs_ge (F : Fmt) (x : Bits) (h : 1 ≤ x.exp) : (2 : ℚ) ^ ((x.exp : ℤ) - F.bias) ≤ |x.val F| := by
  rw [Fp.abs_val]
  have hs : 2 ^ F.mw ≤ x.sig F := by unfold Bits.sig; rw [if_neg (by omega)]; omega
  have hs : (2 : ℚ) ^ F.mw ≤ x.sig F := by exact_mod_cast hs
  have hu : (0 : ℚ) < 2 ^ x.lsb F := zpow_pos (by norm_num) _
  have e : (2 : ℚ) ^ ((x.exp : ℤ) - F.bias) = 2 ^ F.mw * 2 ^ x.lsb F := by
    rw [← zpow_natCast, ← zpow_add₀ (by norm_num)]
    congr 1
    unfold Bits.lsb
    rw [max_eq_left h]
    ring
  rw [e]
  exact mul_le_mul_of_nonneg_right hs hu.le

theorem abs_lt (F : Fmt) (x : Bits) (hx : x.WF F) : |x.val F| < (2 : ℚ) ^ ((x.exp : ℤ) - F.bias + 1) := by
  by_cases h : x.exp = 0
  · rw [Fp.abs_val]
    have hs : x.sig F < 2 ^ F.mw := by unfold Bits.sig; rw [if_pos h]; exact hx.2
    have hs : (x.sig F : ℚ) < 2 ^ F.mw := by exact_mod_cast hs
    have hu : (0 : ℚ) < 2 ^ x.lsb F := zpow_pos (by norm_num) _
    have e : (2 : ℚ) ^ ((x.exp : ℤ) - F.bias + 1) = 2 ^ F.mw * 2 ^ x.lsb F := by
      rw [← zpow_natCast, ← zpow_add₀ (by norm_num)]
      congr 1
      unfold Bits.lsb
      rw [h]
      simp
      ring
    rw [e]
    exact mul_lt_mul_of_pos_right hs hu
  · refine lt_of_lt_of_le (Cancel.abs_val_lt F x hx) (zpow_le_zpow_right₀ (by norm_num) ?_)
    unfold Bits.lsb
    rw [max_eq_left (by omega)]
    omega

/-- Rounding does not make a number smaller than one of the format it was not smaller than. -/
theorem host_mono (F : Fmt) (r : ℚ) (w : Bits) (h : Vprec.Host F r w) (hw : w.exp < F.expInf) (A : Bits) (hA : A.WF F) (hr : |A.val F| ≤ |r|) :
    |A.val F| ≤ |w.val F| := by
  have hneg : (fneg A).WF F := hA
  have key : |w.val F - r| ≤ |r| - |A.val F| := by
    have n1 := h.near hw A hA
    have n2 := h.near hw (fneg A) hneg
    rw [val_fneg] at n2
    rcases le_total 0 r with h1 | h1 <;> rcases le_total 0 (A.val F) with h2 | h2
    · rw [abs_of_nonneg h1, abs_of_nonneg h2] at hr ⊢
      rw [abs_of_nonpos (show A.val F - r ≤ 0 by linarith)] at n1
      linarith
    · rw [abs_of_nonneg h1, abs_of_nonpos h2] at hr ⊢
      rw [abs_of_nonpos (show -A.val F - r ≤ 0 by linarith)] at n2
      linarith
    · rw [abs_of_nonpos h1, abs_of_nonneg h2] at hr ⊢
      rw [abs_of_nonneg (show 0 ≤ -A.val F - r by linarith)] at n2
      linarith
    · rw [abs_of_nonpos h1, abs_of_nonpos h2] at hr ⊢
      rw [abs_of_nonneg (show 0 ≤ A.val F - r by linarith)] at n1
      linarith
  have := abs_sub_abs_le_abs_sub r (w.val F)
  rw [abs_sub_comm] at this
  linarith

theorem exp_mono (F : Fmt) (A w : Bits) (hw : w.WF F) (h : |A.val F| ≤ |w.val F|) : A.exp ≤ w.exp := by
  by_contra hc
  have h1 := abs_ge F A (by omega)
  have h2 := abs_lt F w hw
  have h3 : (2 : ℚ) ^ ((w.exp : ℤ) - F.bias + 1) ≤ 2 ^ ((A.exp : ℤ) - F.bias) := zpow_le_zpow_right₀ (by norm_num) (by omega)
  linarith

/-- The error of a sum of the cancellation backend that comes out smaller than an operand, with tolerance `t`. -/
def cancelUnit (F : Fmt) (t : ℤ) : ℚ := chain F (2 ^ (1 - t))

/-- The absolute error. -/
def cancelTiny (p : Wrapper.Prec) (t : ℤ) : ℚ := tiny p * (1 + 2 ^ (1 - t)) + 2 ^ (1 - t - (fmtOf p).bias)

/-- A sum of the cancellation backend: `w` is that of the machine, and `y` at most `2^(2e_w+1-e)` from it if it loses bits, `e` being the
largest exponent of the operands. -/
theorem cancel_sum (p : Wrapper.Prec) (t : ℤ) (ht : 1 ≤ t) (A B w y : Bits) (wA : A.WF (fmtOf p)) (wB : B.WF (fmtOf p)) (r : ℚ)
    (host : Vprec.Host (fmtOf p) r w) (low : Option ℤ) (h h' : ℤ) (hh : h' ≤ (fmtOf p).bias)
    (hd : p = .double → ∃ l ∈ low, 2 - ((fmtOf p).bias : ℤ) ≤ l ∧ h ≤ 2 * l + 970 ∧ 1 - ((fmtOf p).bias : ℤ) ≤ h)
    (iA : |A.val (fmtOf p)| < 2 ^ h) (iB : |B.val (fmtOf p)| < 2 ^ h)
    (c1 : ((max A.exp B.exp : Nat) : ℤ) - w.exp < t → y = w)
    (c2 : t ≤ ((max A.exp B.exp : Nat) : ℤ) - w.exp →
      (p = .double → -970 ≤ (w.exp : ℤ) - (fmtOf p).bias - (((max A.exp B.exp : Nat) : ℤ) - w.exp - 1)) →
      y.Fin (fmtOf p) ∧ |y.val (fmtOf p) - w.val (fmtOf p)| ≤ 2 ^ ((w.exp : ℤ) - (fmtOf p).bias - (((max A.exp B.exp : Nat) : ℤ) - w.exp - 1)))
    (hr : (⟨low, h', false⟩ : Band).Has r) :
    y.Fin (fmtOf p) ∧ |y.val (fmtOf p) - r| ≤
      (if |r| < max |A.val (fmtOf p)| |B.val (fmtOf p)| then cancelUnit (fmtOf p) t else unit p) * |r| + cancelTiny p t := by
  obtain ⟨hr1, hr2⟩ := hr
  obtain ⟨fw, ew⟩ := host_abs (fmtOf p) (by cases p <;> decide) r w host (lt_of_lt_of_le hr1 (zpow_le_zpow_right₀ (by norm_num) hh))
  have hwi := fin_lt host.wf fw
  have ew : |w.val (fmtOf p) - r| ≤ unit p * |r| + tiny p := ew
  have u0 : (0 : ℚ) < unit p := zpow_pos (by norm_num) _
  have t0 : (0 : ℚ) < tiny p := zpow_pos (by norm_num) _
  have d0 : (0 : ℚ) < 2 ^ (1 - t) := zpow_pos (by norm_num) _
  have b0 : (0 : ℚ) < 2 ^ (1 - t - ((fmtOf p).bias : ℤ)) := zpow_pos (by norm_num) _
  have hle : unit p ≤ cancelUnit (fmtOf p) t := by
    unfold cancelUnit chain
    change unit p ≤ (1 + unit p) * (1 + 2 ^ (1 - t)) - 1
    nlinarith
  have htiny : tiny p ≤ cancelTiny p t := by
    unfold cancelTiny
    nlinarith
  by_cases hk : ((max A.exp B.exp : Nat) : ℤ) - w.exp < t
  · rw [c1 hk]
    refine ⟨fw, le_trans ew ?_⟩
    have : unit p * |r| ≤ (if |r| < max |A.val (fmtOf p)| |B.val (fmtOf p)| then cancelUnit (fmtOf p) t else unit p) * |r| := by
      refine mul_le_mul_of_nonneg_right ?_ (abs_nonneg _)
      split_ifs
      · exact hle
      · exact le_rfl
    linarith
  rw [not_lt] at hk
  have hsmall : |r| < max |A.val (fmtOf p)| |B.val (fmtOf p)| := by
    by_contra hc
    rw [not_lt] at hc
    have h1 := exp_mono _ A w host.wf (host_mono _ r w host hwi A wA (le_trans (le_max_left _ _) hc))
    have h2 := exp_mono _ B w host.wf (host_mono _ r w host hwi B wB (le_trans (le_max_right _ _) hc))
    omega
  rw [if_pos hsmall]
  obtain ⟨fy, ey⟩ := c2 hk (by
    intro hp
    obtain ⟨l, hl, l1, l2, l3⟩ := hd hp
    have hl := hr2 l hl
    have w1 : l - 1 ≤ (w.exp : ℤ) - (fmtOf p).bias := by
      have h1 := abs_lt (fmtOf p) w host.wf
      have h2 := abs_sub_abs_le_abs_sub r (w.val (fmtOf p))
      rw [abs_sub_comm] at h2
      have h3 : unit p ≤ 1 / 4 := by
        subst hp
        unfold unit
        refine le_trans (zpow_le_zpow_right₀ (by norm_num) (show _ ≤ (-2 : ℤ) by decide)) (by norm_num)
      have h4 : tiny p ≤ 2 ^ l * (1 / 4) := by
        have : tiny p ≤ 2 ^ (l + (-2)) := zpow_le_zpow_right₀ (by norm_num) (by subst hp; revert l1; have : (fmtOf .double).bias = 1023 := rfl; have : (fmtOf .double).uexp = -1074 := rfl; omega)
        rw [zpow_add₀ (by norm_num)] at this
        norm_num at this ⊢
        linarith
      have h5 := mul_le_mul_of_nonneg_right h3 (abs_nonneg r)
      have h6 : (2 : ℚ) ^ (l - 1) < 2 ^ ((w.exp : ℤ) - (fmtOf p).bias + 1) := by
        rw [zpow_sub_one₀ (by norm_num)]
        linarith
      have := (zpow_lt_zpow_iff_right₀ (by norm_num : (1 : ℚ) < 2)).1 h6
      omega
    have key : ∀ X : Bits, |X.val (fmtOf p)| < 2 ^ h → (X.exp : ℤ) - (fmtOf p).bias ≤ h - 1 := by
      intro X hX
      by_cases h0 : X.exp = 0
      · omega
      · have := (zpow_lt_zpow_iff_right₀ (by norm_num : (1 : ℚ) < 2)).1 (lt_of_le_of_lt (abs_ge (fmtOf p) X (by omega)) hX)
        omega
    have kA := key A iA
    have kB := key B iB
    have hb : (fmtOf p).bias = 1023 := by subst hp; rfl
    omega)
  refine ⟨fy, ?_⟩
  have hn : |y.val (fmtOf p) - w.val (fmtOf p)| ≤ 2 ^ (1 - t) * |w.val (fmtOf p)| + 2 ^ (1 - t - ((fmtOf p).bias : ℤ)) := by
    refine le_trans ey ?_
    by_cases h0 : w.exp = 0
    · have h1 : (2 : ℚ) ^ ((w.exp : ℤ) - (fmtOf p).bias - (((max A.exp B.exp : Nat) : ℤ) - w.exp - 1)) ≤ 2 ^ (1 - t - ((fmtOf p).bias : ℤ)) :=
        zpow_le_zpow_right₀ (by norm_num) (by omega)
      have := mul_nonneg d0.le (abs_nonneg (w.val (fmtOf p)))
      linarith
    · have h1 : (2 : ℚ) ^ ((w.exp : ℤ) - (fmtOf p).bias - (((max A.exp B.exp : Nat) : ℤ) - w.exp - 1)) ≤ 2 ^ (1 - t + ((w.exp : ℤ) - (fmtOf p).bias)) :=
        zpow_le_zpow_right₀ (by norm_num) (by omega)
      rw [zpow_add₀ (by norm_num)] at h1
      have := mul_le_mul_of_nonneg_left (abs_ge (fmtOf p) w (by omega)) d0.le
      linarith
  have h1 := abs_sub_le (y.val (fmtOf p)) (w.val (fmtOf p)) r
  have h2 := abs_sub_abs_le_abs_sub (w.val (fmtOf p)) r
  unfold cancelUnit cancelTiny chain
  change _ ≤ ((1 + unit p) * (1 + 2 ^ (1 - t)) - 1) * |r| + _
  generalize (2 : ℚ) ^ (1 - t) = d at *
  generalize (2 : ℚ) ^ (1 - t - ((fmtOf p).bias : ℤ)) = b at *
  have h3 := mul_le_mul_of_nonneg_left (show |w.val (fmtOf p)| ≤ |r| + (unit p * |r| + tiny p) by linarith) d0.le
  nlinarith

/-- What cancellation guarantees, in terms of errors. -/
theorem cancel_abs (p : Wrapper.Prec) (t : ℤ) (ht : 1 ≤ t) (low : Option ℤ) (h h' : ℤ) (hh : h' ≤ (fmtOf p).bias)
    (hd : p = .double → ∃ l ∈ low, 2 - ((fmtOf p).bias : ℤ) ≤ l ∧ h ≤ 2 * l + 970 ∧ 1 - ((fmtOf p).bias : ℤ) ≤ h)
    (o : Wrapper.OpId) (x : List (BitVec 64)) (y : Bits) (hc : CancelContract t o x y) :
    AbsContract p 0 (unit p) (cancelUnit (fmtOf p) t) (cancelTiny p t) ⟨none, h, true⟩ ⟨low, h', false⟩ ⟨none, h', true⟩ o x y := by
  have htiny : tiny p ≤ cancelTiny p t := by
    have t0 : (0 : ℚ) < tiny p := zpow_pos (by norm_num) _
    have d0 : (0 : ℚ) < 2 ^ (1 - t) := zpow_pos (by norm_num) _
    have b0 : (0 : ℚ) < 2 ^ (1 - t - ((fmtOf p).bias : ℤ)) := zpow_pos (by norm_num) _
    unfold cancelTiny
    nlinarith
  have hb : ∀ z w, Vprec.Host (fmtOf p) z w →
      ((⟨none, h', true⟩ : Band).zero = true → z = 0 → w.Fin (fmtOf p) ∧ w.val (fmtOf p) = 0) ∧
      ((⟨none, h', true⟩ : Band).Has z → w.Fin (fmtOf p) ∧ |w.val (fmtOf p) - z| ≤ unit p * |z| + cancelTiny p t) := by
    intro z w hw
    refine ⟨fun _ hz => ?_, fun hz => ?_⟩
    · subst hz
      exact host_zero (fmtOf p) w hw
    · obtain ⟨h1, h2⟩ := host_abs (fmtOf p) (by cases p <;> decide) z w hw
        (lt_of_lt_of_le hz.1 (zpow_le_zpow_right₀ (by norm_num) hh))
      have h2 : |w.val (fmtOf p) - z| ≤ unit p * |z| + tiny p := h2
      exact ⟨h1, by linarith⟩
  have hI : ∀ z, (⟨none, h, true⟩ : Band).Ok z → |z| < 2 ^ h := by
    rintro z (hz | hz)
    · rw [hz.2, abs_zero]
      exact zpow_pos (by norm_num) _
    · exact hz.1
  rcases o with ⟨a, q⟩ | q | q | _
  · rintro rfl fA fB iA iB
    refine ⟨(operand (fmtOf q) x 0).val (fmtOf q), (operand (fmtOf q) x 1).val (fmtOf q), by simp, by simp, fun hB => ?_⟩
    have host := machine_host q a _ _ fA fB hB
    cases a
    · refine ⟨fun hz => absurd hz (by simp [isSum]), fun hr => ?_⟩
      simp only [isSum, true_and] at hr ⊢
      exact cancel_sum q t ht _ _ _ y (operand_wf _ _ _) (operand_wf _ _ _) _ host low h h' hh hd (hI _ iA) (hI _ iB) hc.1
        (fun h1 h2 => hc.2 h1 fA fB h2) hr
    · refine ⟨fun hz => absurd hz (by simp [isSum]), fun hr => ?_⟩
      simp only [isSum, true_and] at hr ⊢
      exact cancel_sum q t ht _ _ _ y (operand_wf _ _ _) (operand_wf _ _ _) _ host low h h' hh hd (hI _ iA) (hI _ iB) hc.1
        (fun h1 h2 => hc.2 h1 fA fB h2) hr
    · obtain rfl : y = operatorC (fmtOf q) _ _ .mul := hc
      simpa [isSum] using hb _ _ host
    · obtain rfl : y = operatorC (fmtOf q) _ _ .div := hc
      simpa [isSum] using hb _ _ host
  · trivial
  · rintro rfl fA fB fC - - -
    obtain rfl := hc
    exact ⟨(operand (fmtOf q) x 0).val (fmtOf q), (operand (fmtOf q) x 1).val (fmtOf q), (operand (fmtOf q) x 2).val (fmtOf q),
      by simp, by simp, by simp,
      hb _ _ (host_ffma (fmtOf q) (by cases q <;> decide) (by cases q <;> decide) _ _ _ fA fB fC)⟩
  · trivial

/-- **C112** The cancellation backend, with a generator that does not draw one half (C26): the error of a sum that comes out smaller than
an operand is about `2^(1-tolerance)` times its value, and that of other operations is the machine's. In `double`, sums must be so large
that the noise is in range. -/
theorem C112_cancellation_partial (g : Mca.Gen σ) (hg : ∀ s, Mca.drawn (g.next s).1 ≠ 2 ^ 51) (cfg : Cancel.Ctx)
    (ht : 1 ≤ cfg.tolerance) (fl : Flags) (hfc : fl.fcmp = false) (p : Wrapper.Prec) (low : Option ℤ) (h h' : ℤ)
    (hh : h' ≤ (fmtOf p).bias)
    (hd : p = .double → ∃ l ∈ low, 2 - ((fmtOf p).bias : ℤ) ≤ l ∧ h ≤ 2 * l + 970 ∧ 1 - ((fmtOf p).bias : ℤ) ≤ h)
    (bs : List (Wrapper.Backend σ κ)) (ctx : Nat → κ) :
    Meets fl (AbsContract p 0 (unit p) (cancelUnit (fmtOf p) cfg.tolerance) (cancelTiny p cfg.tolerance)
      ⟨none, h, true⟩ ⟨low, h', false⟩ ⟨none, h', true⟩) (bs ++ [cancelBackend g cfg]) ctx :=
  (C94_cancellation_partial g hg cfg ht fl hfc bs ctx).mono (cancel_abs p _ ht low h h' hh hd)

/-! ## VPREC with a bound on absolute errors -/

/-- Whether operands are rounded. -/
def vprecInn (cfg : Vprec.Config.Cfg) : Nat := if cfg.mode = .ib ∨ cfg.mode = .full then 1 else 0

/-- The relative error: that of the type, and of the precision in the combined mode. -/
def vprecRel (cfg : Vprec.Config.Cfg) (p : Wrapper.Prec) : ℚ := chain (fmtOf p) (Vprec.absUnit cfg.ctx (vprecSize cfg p).2)

/-- The absolute error: the threshold, and half the smallest number of the type. -/
def vprecAbs (cfg : Vprec.Config.Cfg) (p : Wrapper.Prec) : ℚ :=
  tiny p * (1 + Vprec.absUnit cfg.ctx (vprecSize cfg p).2) + 2 ^ cfg.absErrExp

/-- The numbers below `2^e`. -/
def below (e : ℤ) : Band := ⟨none, e, true⟩

theorem below_ok (e : ℤ) (z : ℚ) (h : (below e).Ok z) : |z| < 2 ^ e := by
  rcases h with h | h
  · rw [h.2, abs_zero]
    exact zpow_pos (by norm_num) _
  · exact h.1

theorem absUnit_nonneg (c : Vprec.Ctx) (t : Nat) : 0 ≤ Vprec.absUnit c t := by
  unfold Vprec.absUnit
  split
  · exact (zpow_pos (by norm_num) _).le
  · exact le_rfl

section
variable (cfg : Vprec.Config.Cfg) (habs : cfg.absErr = true) (q : Wrapper.Prec) (w : Nat) (hIs : Vprec.IsC (fmtOf q) w) (r t : Nat)
  (hr : 2 ≤ r) (hr2 : r ≤ (fmtOf q).ew) (hp1 : 1 ≤ t) (hpz : t ≤ (fmtOf q).mw) (hk : Vprec.Spec.emin r ≤ cfg.absErrExp)
include habs hIs hr hr2 hp1 hpz hk

theorem vprec_abs_operand (X X1 : Bits) (wX : X.WF (fmtOf q)) (fX : X.Fin (fmtOf q)) (iX : |X.val (fmtOf q)| < 2 ^ Vprec.Spec.emax r)
    (hX : (Vprec.Ops.RoundsOperands cfg.mode → Vprec.roundBinary .wrap (fmtOf q) w X true cfg.ctx r t = .ok X1) ∧
      (¬ Vprec.Ops.RoundsOperands cfg.mode → X1 = X)) :
    X1.Fin (fmtOf q) ∧ |X1.val (fmtOf q) - X.val (fmtOf q)| ≤ vprecInn cfg *
      (chain (fmtOf q) (Vprec.absUnit cfg.ctx t) * |X.val (fmtOf q)| + (tiny q * (1 + Vprec.absUnit cfg.ctx t) + 2 ^ cfg.absErrExp)) := by
  have d0 := absUnit_nonneg cfg.ctx t
  have u0 : (0 : ℚ) < unit q := zpow_pos (by norm_num) _
  have t0 : (0 : ℚ) < tiny q := zpow_pos (by norm_num) _
  by_cases ho : Vprec.Ops.RoundsOperands cfg.mode
  · obtain ⟨-, h1, h2⟩ := Vprec.C08_error_partial (fmtOf q) w hIs X X1 true cfg.ctx r t habs hr hr2 hp1 hpz wX fX hk iX (hX.1 ho)
    unfold vprecInn
    rw [if_pos (show cfg.mode = .ib ∨ cfg.mode = .full from ho), Nat.cast_one, one_mul]
    refine ⟨h1, le_trans h2 ?_⟩
    have : Vprec.absUnit cfg.ctx t ≤ chain (fmtOf q) (Vprec.absUnit cfg.ctx t) := by
      unfold chain
      change _ ≤ (1 + unit q) * (1 + Vprec.absUnit cfg.ctx t) - 1
      nlinarith
    have := mul_le_mul_of_nonneg_right this (abs_nonneg (X.val (fmtOf q)))
    have e : cfg.ctx.absErrExp = cfg.absErrExp := rfl
    rw [e]
    nlinarith
  · rw [hX.2 ho]
    unfold vprecInn
    rw [if_neg (show ¬ (cfg.mode = .ib ∨ cfg.mode = .full) from ho)]
    exact ⟨fX, by simp⟩

/-- The result `y` of an operation whose exact result is `z`. -/
theorem vprec_abs_result (z : ℚ) (v y : Bits) (hv : Vprec.Host (fmtOf q) z v)
    (y1 : Vprec.Ops.RoundsResult cfg.mode → Vprec.roundBinary .wrap (fmtOf q) w v false cfg.ctx r t = .ok y)
    (y2 : ¬ Vprec.Ops.RoundsResult cfg.mode → y = v) :
    ((below (Vprec.Spec.emax r - 1)).zero = true → z = 0 → y.Fin (fmtOf q) ∧ y.val (fmtOf q) = 0) ∧
    ((below (Vprec.Spec.emax r - 1)).Has z → y.Fin (fmtOf q) ∧ |y.val (fmtOf q) - z| ≤
      chain (fmtOf q) (Vprec.absUnit cfg.ctx t) * |z| + (tiny q * (1 + Vprec.absUnit cfg.ctx t) + 2 ^ cfg.absErrExp)) := by
  obtain ⟨hem1, hem2, -⟩ := Vprec.range_facts (fmtOf q) w hIs r t hr hr2 hpz
  have d0 := absUnit_nonneg cfg.ctx t
  have k0 : (0 : ℚ) < 2 ^ cfg.absErrExp := zpow_pos (by norm_num) _
  have u0 : (0 : ℚ) < unit q := zpow_pos (by norm_num) _
  have t0 : (0 : ℚ) < tiny q := zpow_pos (by norm_num) _
  refine ⟨fun _ hz => ?_, fun hz => ?_⟩
  · subst hz
    obtain ⟨fv, ev⟩ := host_zero (fmtOf q) v hv
    by_cases hm : Vprec.Ops.RoundsResult cfg.mode
    · obtain ⟨h1, h2, -⟩ := Vprec.C08_error_partial (fmtOf q) w hIs v y false cfg.ctx r t habs hr hr2 hp1 hpz hv.wf fv hk
        (by rw [ev, abs_zero]; exact zpow_pos (by norm_num) _) (y1 hm)
      exact ⟨h2, h1 ev⟩
    · rw [y2 hm]
      exact ⟨fv, ev⟩
  · obtain ⟨fv, ev⟩ := host_abs (fmtOf q) (by cases q <;> decide) z v hv
      (lt_of_lt_of_le hz.1 (zpow_le_zpow_right₀ (by norm_num) (show Vprec.Spec.emax r - 1 ≤ (fmtOf q).bias by omega)))
    have ev : |v.val (fmtOf q) - z| ≤ unit q * |z| + tiny q := ev
    have h1 := abs_sub_abs_le_abs_sub (v.val (fmtOf q)) z
    have h2 := abs_sub_le (y.val (fmtOf q)) (v.val (fmtOf q)) z
    have key : y.Fin (fmtOf q) ∧ |y.val (fmtOf q) - v.val (fmtOf q)| ≤ Vprec.absUnit cfg.ctx t * |v.val (fmtOf q)| + 2 ^ cfg.absErrExp := by
      by_cases hm : Vprec.Ops.RoundsResult cfg.mode
      · refine (Vprec.C08_error_partial (fmtOf q) w hIs v y false cfg.ctx r t habs hr hr2 hp1 hpz hv.wf fv hk ?_ (y1 hm)).2
        have hz1 : |z| < 2 ^ (Vprec.Spec.emax r - 1) := hz.1
        have hu : unit q ≤ 1 / 4 := by
          unfold unit
          refine le_trans (zpow_le_zpow_right₀ (by norm_num) (show _ ≤ (-2 : ℤ) by cases q <;> decide)) (by norm_num)
        have ht : tiny q ≤ 1 / 4 := by
          unfold tiny
          refine le_trans (zpow_le_zpow_right₀ (by norm_num) (show _ ≤ (-2 : ℤ) by cases q <;> decide)) (by norm_num)
        have hone : (1 : ℚ) ≤ 2 ^ (Vprec.Spec.emax r - 1) := one_le_zpow₀ (by norm_num) (by omega)
        have hdbl : (2 : ℚ) ^ Vprec.Spec.emax r = 2 * 2 ^ (Vprec.Spec.emax r - 1) := by
          rw [← zpow_one_add₀ (by norm_num)]
          congr 1
          ring
        rw [hdbl]
        have := mul_le_mul_of_nonneg_right hu (abs_nonneg z)
        linarith
      · rw [y2 hm, sub_self, abs_zero]
        exact ⟨fv, by have := mul_nonneg d0 (abs_nonneg (v.val (fmtOf q))); linarith⟩
    refine ⟨key.1, ?_⟩
    have h3 := mul_le_mul_of_nonneg_left (show |v.val (fmtOf q)| ≤ |z| + (unit q * |z| + tiny q) by linarith) d0
    unfold chain
    change _ ≤ ((1 + unit q) * (1 + Vprec.absUnit cfg.ctx t) - 1) * |z| + _
    have := key.2
    nlinarith

theorem vprec_abs_call (k : Vprec.Ops.Call) (a : Wrapper.Arith) (A B : Bits) (wA : A.WF (fmtOf q)) (wB : B.WF (fmtOf q))
    (hv : Vprec.Ops.view (vprecHW b32) (vprecHW b64) cfg k =
      some ⟨fmtOf q, w, r, t, [A, B], Vprec.Ops.apply2 ((vprecHW (fmtOf q)).op2 (vprecOp a))⟩) :
    ∃ y, Vprec.Ops.exec .wrap (vprecHW b32) (vprecHW b64) cfg k = .ok y ∧ y.WF (fmtOf q) ∧
      (A.Fin (fmtOf q) → B.Fin (fmtOf q) → (below (Vprec.Spec.emax r)).Ok (A.val (fmtOf q)) → (below (Vprec.Spec.emax r)).Ok (B.val (fmtOf q)) →
        ∃ A' B' : ℚ, |A' - A.val (fmtOf q)| ≤ vprecInn cfg * (chain (fmtOf q) (Vprec.absUnit cfg.ctx t) * |A.val (fmtOf q)| +
            (tiny q * (1 + Vprec.absUnit cfg.ctx t) + 2 ^ cfg.absErrExp)) ∧
          |B' - B.val (fmtOf q)| ≤ vprecInn cfg * (chain (fmtOf q) (Vprec.absUnit cfg.ctx t) * |B.val (fmtOf q)| +
            (tiny q * (1 + Vprec.absUnit cfg.ctx t) + 2 ^ cfg.absErrExp)) ∧
          ((a = .div → B' ≠ 0) →
            ((below (Vprec.Spec.emax r - 1)).zero = true → realOp a A' B' = 0 → y.Fin (fmtOf q) ∧ y.val (fmtOf q) = 0) ∧
            ((below (Vprec.Spec.emax r - 1)).Has (realOp a A' B') → y.Fin (fmtOf q) ∧ |y.val (fmtOf q) - realOp a A' B'| ≤
              chain (fmtOf q) (Vprec.absUnit cfg.ctx t) * |realOp a A' B'| +
                (tiny q * (1 + Vprec.absUnit cfg.ctx t) + 2 ^ cfg.absErrExp)))) := by
  have hmw : 1 ≤ (fmtOf q).mw := by cases q <;> decide
  have hop : ∀ l : List Bits, (∀ x ∈ l, x.WF (fmtOf q)) → (Vprec.Ops.apply2 ((vprecHW (fmtOf q)).op2 (vprecOp a)) l).WF (fmtOf q) := by
    intro l hl
    match l, hl with
    | [], _ => exact Vprec.zero_wf _ _
    | [a], _ => exact Vprec.zero_wf _ _
    | [c, d], hl =>
      have := operatorC_wf (fmtOf q) hmw c d (hl c (by simp)) (hl d (by simp)) a
      cases a <;> exact this
    | a :: b :: c :: l, _ => exact Vprec.zero_wf _ _
  have hround : ∀ x inp, x.WF (fmtOf q) → ∃ y, Vprec.roundBinary .wrap (fmtOf q) w x inp cfg.ctx ((r : Int).toNat) t = .ok y ∧ y.WF (fmtOf q) :=
    fun x inp hx => Vprec.C08_result_defined (fmtOf q) w hIs x inp cfg.ctx r t hx
  obtain ⟨used, hu, y, hy, wy, y1, y2⟩ := vprec_any .wrap (vprecHW b32) (vprecHW b64) cfg k _ hv hround
    (by intro x hx; simp only [List.mem_cons, List.not_mem_nil, or_false] at hx; rcases hx with rfl | rfl <;> assumption) hop
  refine ⟨y, hy, wy, fun fA fB iA iB => ?_⟩
  obtain ⟨A1, B1, rfl, hA, hB⟩ : ∃ A1 B1, used = [A1, B1] ∧
      ((Vprec.Ops.RoundsOperands cfg.mode → Vprec.roundBinary .wrap (fmtOf q) w A true cfg.ctx r t = .ok A1) ∧
        (¬ Vprec.Ops.RoundsOperands cfg.mode → A1 = A)) ∧
      ((Vprec.Ops.RoundsOperands cfg.mode → Vprec.roundBinary .wrap (fmtOf q) w B true cfg.ctx r t = .ok B1) ∧
        (¬ Vprec.Ops.RoundsOperands cfg.mode → B1 = B)) := by
    cases hu with
    | cons a1 hu => cases hu with
      | cons a2 hu => cases hu; exact ⟨_, _, rfl, a1, a2⟩
  have he : Vprec.Ops.apply2 ((vprecHW (fmtOf q)).op2 (vprecOp a)) [A1, B1] = operatorC (fmtOf q) A1 B1 a := by cases a <;> rfl
  simp only [he] at y1 y2
  obtain ⟨fA1, eA⟩ := vprec_abs_operand cfg habs q w hIs r t hr hr2 hp1 hpz hk A A1 wA fA (below_ok _ _ iA) hA
  obtain ⟨fB1, eB⟩ := vprec_abs_operand cfg habs q w hIs r t hr hr2 hp1 hpz hk B B1 wB fB (below_ok _ _ iB) hB
  exact ⟨A1.val (fmtOf q), B1.val (fmtOf q), eA, eB, fun hB0 =>
    vprec_abs_result cfg habs q w hIs r t hr hr2 hp1 hpz hk _ _ y (machine_host q a A1 B1 fA1 fB1 hB0) y1 y2⟩

theorem vprec_abs_fma (k : Vprec.Ops.Call) (A B C : Bits) (wA : A.WF (fmtOf q)) (wB : B.WF (fmtOf q)) (wC : C.WF (fmtOf q))
    (hv : Vprec.Ops.view (vprecHW b32) (vprecHW b64) cfg k = some ⟨fmtOf q, w, r, t, [A, B, C], Vprec.Ops.apply3 (vprecHW (fmtOf q)).fma⟩) :
    ∃ y, Vprec.Ops.exec .wrap (vprecHW b32) (vprecHW b64) cfg k = .ok y ∧ y.WF (fmtOf q) ∧
      (A.Fin (fmtOf q) → B.Fin (fmtOf q) → C.Fin (fmtOf q) → (below (Vprec.Spec.emax r)).Ok (A.val (fmtOf q)) →
        (below (Vprec.Spec.emax r)).Ok (B.val (fmtOf q)) → (below (Vprec.Spec.emax r)).Ok (C.val (fmtOf q)) →
        ∃ A' B' C' : ℚ, |A' - A.val (fmtOf q)| ≤ vprecInn cfg * (chain (fmtOf q) (Vprec.absUnit cfg.ctx t) * |A.val (fmtOf q)| +
            (tiny q * (1 + Vprec.absUnit cfg.ctx t) + 2 ^ cfg.absErrExp)) ∧
          |B' - B.val (fmtOf q)| ≤ vprecInn cfg * (chain (fmtOf q) (Vprec.absUnit cfg.ctx t) * |B.val (fmtOf q)| +
            (tiny q * (1 + Vprec.absUnit cfg.ctx t) + 2 ^ cfg.absErrExp)) ∧
          |C' - C.val (fmtOf q)| ≤ vprecInn cfg * (chain (fmtOf q) (Vprec.absUnit cfg.ctx t) * |C.val (fmtOf q)| +
            (tiny q * (1 + Vprec.absUnit cfg.ctx t) + 2 ^ cfg.absErrExp)) ∧
          ((below (Vprec.Spec.emax r - 1)).zero = true → A' * B' + C' = 0 → y.Fin (fmtOf q) ∧ y.val (fmtOf q) = 0) ∧
          ((below (Vprec.Spec.emax r - 1)).Has (A' * B' + C') → y.Fin (fmtOf q) ∧ |y.val (fmtOf q) - (A' * B' + C')| ≤
            chain (fmtOf q) (Vprec.absUnit cfg.ctx t) * |A' * B' + C'| + (tiny q * (1 + Vprec.absUnit cfg.ctx t) + 2 ^ cfg.absErrExp))) := by
  have hmw : 1 ≤ (fmtOf q).mw := by cases q <;> decide
  have hop : ∀ l : List Bits, (∀ x ∈ l, x.WF (fmtOf q)) → (Vprec.Ops.apply3 (vprecHW (fmtOf q)).fma l).WF (fmtOf q) := by
    intro l hl
    match l, hl with
    | [], _ => exact Vprec.zero_wf _ _
    | [a], _ => exact Vprec.zero_wf _ _
    | [a, b], hl => exact Vprec.zero_wf _ _
    | [a, b, c], hl => exact ffma_wf (fmtOf q) hmw a b c (hl c (by simp))
    | a :: b :: c :: d :: l, _ => exact Vprec.zero_wf _ _
  have hround : ∀ x inp, x.WF (fmtOf q) → ∃ y, Vprec.roundBinary .wrap (fmtOf q) w x inp cfg.ctx ((r : Int).toNat) t = .ok y ∧ y.WF (fmtOf q) :=
    fun x inp hx => Vprec.C08_result_defined (fmtOf q) w hIs x inp cfg.ctx r t hx
  obtain ⟨used, hu, y, hy, wy, y1, y2⟩ := vprec_any .wrap (vprecHW b32) (vprecHW b64) cfg k _ hv hround
    (by intro x hx; simp only [List.mem_cons, List.not_mem_nil, or_false] at hx; rcases hx with rfl | rfl | rfl <;> assumption) hop
  refine ⟨y, hy, wy, fun fA fB fC iA iB iC => ?_⟩
  obtain ⟨A1, B1, C1, rfl, hA, hB, hC⟩ : ∃ A1 B1 C1, used = [A1, B1, C1] ∧
      ((Vprec.Ops.RoundsOperands cfg.mode → Vprec.roundBinary .wrap (fmtOf q) w A true cfg.ctx r t = .ok A1) ∧
        (¬ Vprec.Ops.RoundsOperands cfg.mode → A1 = A)) ∧
      ((Vprec.Ops.RoundsOperands cfg.mode → Vprec.roundBinary .wrap (fmtOf q) w B true cfg.ctx r t = .ok B1) ∧
        (¬ Vprec.Ops.RoundsOperands cfg.mode → B1 = B)) ∧
      ((Vprec.Ops.RoundsOperands cfg.mode → Vprec.roundBinary .wrap (fmtOf q) w C true cfg.ctx r t = .ok C1) ∧
        (¬ Vprec.Ops.RoundsOperands cfg.mode → C1 = C)) := by
    cases hu with
    | cons a1 hu => cases hu with
      | cons a2 hu => cases hu with
        | cons a3 hu => cases hu; exact ⟨_, _, _, rfl, a1, a2, a3⟩
  have he : Vprec.Ops.apply3 (vprecHW (fmtOf q)).fma [A1, B1, C1] = ffma (fmtOf q) A1 B1 C1 := rfl
  simp only [he] at y1 y2
  obtain ⟨fA1, eA⟩ := vprec_abs_operand cfg habs q w hIs r t hr hr2 hp1 hpz hk A A1 wA fA (below_ok _ _ iA) hA
  obtain ⟨fB1, eB⟩ := vprec_abs_operand cfg habs q w hIs r t hr hr2 hp1 hpz hk B B1 wB fB (below_ok _ _ iB) hB
  obtain ⟨fC1, eC⟩ := vprec_abs_operand cfg habs q w hIs r t hr hr2 hp1 hpz hk C C1 wC fC (below_ok _ _ iC) hC
  obtain ⟨h1, h2⟩ := vprec_abs_result cfg habs q w hIs r t hr hr2 hp1 hpz hk _ _ y
    (host_ffma (fmtOf q) (by cases q <;> decide) (by cases q <;> decide) A1 B1 C1 fA1 fB1 fC1) y1 y2
  exact ⟨A1.val (fmtOf q), B1.val (fmtOf q), C1.val (fmtOf q), eA, eB, eC, h1, h2⟩

end

/-- **C112** VPREC in the absolute and the combined error modes, in any arithmetic mode and with any flushing, with the shifts of the
processor and a threshold that is a normal number of the requested formats (C08_subnormal_flushed shows that smaller ones are not met):
operands and results below `2^emax`, however small. -/
theorem C112_vprec_partial (p : Wrapper.Prec) (cfg : Vprec.Config.Cfg) (hc : Vprec.Config.InLimits cfg) (habs : cfg.absErr = true)
    (hk32 : Vprec.Spec.emin cfg.range32.toNat ≤ cfg.absErrExp) (hk64 : Vprec.Spec.emin cfg.range64.toNat ≤ cfg.absErrExp)
    (fl : Flags) (hfc : fl.fcmp = false) (hca : fl.cast = false) (bs : List (Wrapper.Backend σ κ)) (ctx : Nat → κ) :
    Meets fl (AbsContract p (vprecInn cfg) (vprecRel cfg p) (vprecRel cfg p) (vprecAbs cfg p)
      (below (Vprec.Spec.emax (vprecSize cfg p).1)) (below (Vprec.Spec.emax (vprecSize cfg p).1 - 1))
      (below (Vprec.Spec.emax (vprecSize cfg p).1 - 1))) (bs ++ [vprecBackend .wrap cfg]) ctx := by
  have e1 : b32.ew = 8 := rfl
  have e2 : b64.ew = 11 := rfl
  have e3 : b32.mw = 23 := rfl
  have e4 : b64.mw = 52 := rfl
  obtain ⟨h1, h2, h3, h4⟩ := hc
  obtain ⟨r32, hr32⟩ : ∃ r : ℕ, cfg.range32 = r := ⟨cfg.range32.toNat, by omega⟩
  obtain ⟨r64, hr64⟩ : ∃ r : ℕ, cfg.range64 = r := ⟨cfg.range64.toNat, by omega⟩
  obtain ⟨t32, ht32⟩ : ∃ r : ℕ, cfg.prec32 = r := ⟨cfg.prec32.toNat, by omega⟩
  obtain ⟨t64, ht64⟩ : ∃ r : ℕ, cfg.prec64 = r := ⟨cfg.prec64.toNat, by omega⟩
  rw [hr32, Int.toNat_natCast] at hk32
  rw [hr64, Int.toNat_natCast] at hk64
  refine meets_last fl _ _ (fun o ho => ?_) bs ctx
  rcases o with ⟨a, q⟩ | q | q | _
  · refine ⟨_, rfl, fun x _ s => ?_⟩
    cases q
    · obtain ⟨y, k1, k2, k3⟩ := vprec_abs_call cfg habs .float 32 (Or.inl ⟨rfl, rfl⟩) r32 t32 (by omega) (show r32 ≤ b32.ew by omega)
        (by omega) (show t32 ≤ b32.mw by omega) hk32
        (.bin32 (vprecOp a) (operand b32 x 0) (operand b32 x 1)) a (operand b32 x 0) (operand b32 x 1) (operand_wf _ _ _) (operand_wf _ _ _)
        (by rw [← hr32, ← ht32]; rfl)
      refine ⟨y, s, k2, ?_, fun c => ?_⟩
      · rintro rfl
        simp only [vprecRel, vprecAbs, vprecSize, hr32, ht32, Int.toNat_natCast, ite_self]
        exact k3
      · simp only [vprecCall, k1, Outcome.bind_ok, store]
    · obtain ⟨y, k1, k2, k3⟩ := vprec_abs_call cfg habs .double 64 (Or.inr ⟨rfl, rfl⟩) r64 t64 (by omega) (show r64 ≤ b64.ew by omega)
        (by omega) (show t64 ≤ b64.mw by omega) hk64
        (.bin64 (vprecOp a) (operand b64 x 0) (operand b64 x 1)) a (operand b64 x 0) (operand b64 x 1) (operand_wf _ _ _) (operand_wf _ _ _)
        (by rw [← hr64, ← ht64]; rfl)
      refine ⟨y, s, k2, ?_, fun c => ?_⟩
      · rintro rfl
        simp only [vprecRel, vprecAbs, vprecSize, hr64, ht64, Int.toNat_natCast, ite_self]
        exact k3
      · simp only [vprecCall, k1, Outcome.bind_ok, store]
  · simp [Wrapper.emitted, hfc] at ho
  · refine ⟨_, rfl, fun x _ s => ?_⟩
    cases q
    · obtain ⟨y, k1, k2, k3⟩ := vprec_abs_fma cfg habs .float 32 (Or.inl ⟨rfl, rfl⟩) r32 t32 (by omega) (show r32 ≤ b32.ew by omega)
        (by omega) (show t32 ≤ b32.mw by omega) hk32
        (.fma32 (operand b32 x 0) (operand b32 x 1) (operand b32 x 2)) (operand b32 x 0) (operand b32 x 1) (operand b32 x 2)
        (operand_wf _ _ _) (operand_wf _ _ _) (operand_wf _ _ _) (by rw [← hr32, ← ht32]; rfl)
      refine ⟨y, s, k2, ?_, fun c => ?_⟩
      · rintro rfl
        simp only [vprecRel, vprecAbs, vprecSize, hr32, ht32, Int.toNat_natCast]
        exact k3
      · simp only [vprecCall, k1, Outcome.bind_ok, store]
    · obtain ⟨y, k1, k2, k3⟩ := vprec_abs_fma cfg habs .double 64 (Or.inr ⟨rfl, rfl⟩) r64 t64 (by omega) (show r64 ≤ b64.ew by omega)
        (by omega) (show t64 ≤ b64.mw by omega) hk64
        (.fma64 (operand b64 x 0) (operand b64 x 1) (operand b64 x 2)) (operand b64 x 0) (operand b64 x 1) (operand b64 x 2)
        (operand_wf _ _ _) (operand_wf _ _ _) (operand_wf _ _ _) (by rw [← hr64, ← ht64]; rfl)
      refine ⟨y, s, k2, ?_, fun c => ?_⟩
      · rintro rfl
        simp only [vprecRel, vprecAbs, vprecSize, hr64, ht64, Int.toNat_natCast]
        exact k3
      · simp only [vprecCall, k1, Outcome.bind_ok, store]
  · simp [Wrapper.emitted, hca] at ho

end Verif.Pass.Mix.Gen
