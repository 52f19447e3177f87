import Verif.Pass.SumProps

/-!
# Property C98: the errors of operations with every backend

Each backend bounds the errors of additions, multiplications and divisions of positive numbers, so that the theorems
on programs of C97 are about all of them.
-/

namespace Verif.Pass
open Verif Verif.Fp

variable {P σ κ : Type}

/-! ## Numbers of any sign -/

/-- Zero, or a number whose size is in the range. -/
def Range.Ok (I : Range) (x : ℚ) : Prop := x = 0 ∨ I.Has |x|

/-- A bound on the errors of all operations, of numbers of any sign: as in `ErrContract`.  A fused multiply-add changes its three operands
and its result. -/
def SignedContract (p : Wrapper.Prec) (inn : Nat) (η : ℚ) (I R : Range) : Contract
  | .arith a q, x, y =>
    let F := fmtOf p
    let A := operand F x 0
    let B := operand F x 1
    q = p → A.Fin F → B.Fin F → I.Ok (A.val F) → I.Ok (B.val F) →
      ∃ A' B' : ℚ, |A' - A.val F| ≤ inn * η * |A.val F| ∧ |B' - B.val F| ≤ inn * η * |B.val F| ∧
        ((a = .div → B' ≠ 0) → R.Ok (realOp a A' B') → y.Fin F ∧ |y.val F - realOp a A' B'| ≤ η * |realOp a A' B'|)
  | .fma q, x, y =>
    let F := fmtOf p
    let A := operand F x 0
    let B := operand F x 1
    let C := operand F x 2
    q = p → A.Fin F → B.Fin F → C.Fin F → I.Ok (A.val F) → I.Ok (B.val F) → I.Ok (C.val F) →
      ∃ A' B' C' : ℚ, |A' - A.val F| ≤ inn * η * |A.val F| ∧ |B' - B.val F| ≤ inn * η * |B.val F| ∧ |C' - C.val F| ≤ inn * η * |C.val F| ∧
        (R.Ok (A' * B' + C') → y.Fin F ∧ |y.val F - (A' * B' + C')| ≤ η * |A' * B' + C'|)
  | _, _, _ => True

theorem Range.has_ne {R : Range} {x : ℚ} (h : R.Has |x|) : x ≠ 0 := abs_pos.1 (Range.has_pos h)

theorem signed_err (p : Wrapper.Prec) (inn : Nat) (η : ℚ) (h1 : inn * η < 1) (I R : Range) (o : Wrapper.OpId) (x : List (BitVec 64)) (y : Bits)
    (h : SignedContract p inn η I R o x y) : ErrContract p inn η I R o x y := by
  rcases o with ⟨a, q⟩ | q | q | _
  · rintro rfl - fA fB iA iB
    have pA := Range.has_pos iA
    have pB := Range.has_pos iB
    obtain ⟨A', B', eA, eB, c⟩ := h rfl fA fB (Or.inr (by rw [abs_of_pos pA]; exact iA)) (Or.inr (by rw [abs_of_pos pB]; exact iB))
    rw [abs_of_pos pA] at eA
    rw [abs_of_pos pB] at eB
    refine ⟨A', B', eA, eB, fun hR => ?_⟩
    have pr := Range.has_pos hR
    rw [abs_of_pos pr] at c
    refine c (fun _ hB => ?_) (Or.inr (by rw [abs_of_pos pr]; exact hR))
    rw [hB, zero_sub, abs_neg, abs_of_pos pB] at eB
    have := mul_lt_mul_of_pos_right h1 pB
    linarith
  all_goals trivial

/-- The errors of C96, with Monte Carlo arithmetic. -/
theorem rel_signed (mode : Mca.Mode) (δ : Mca.Ty → ℚ) (p : Wrapper.Prec) (h0 : 0 ≤ δ (mcaTy p)) (I : Range)
    (o : Wrapper.OpId) (x : List (BitVec 64)) (y : Bits) (h : RelContract mode δ o x y) :
    SignedContract p (inbound mode) (opError (mcaTy p) (δ (mcaTy p))) I (ordinary (fmtOf p)) o x y := by
  rcases o with ⟨a, q⟩ | q | q | _
  · rintro rfl fA fB - -
    rw [fmtOf_eq] at fA fB ⊢
    obtain ⟨A', B', eA, eB, c⟩ := h fA fB
    have e1 := le_opError (mcaTy q) h0
    have hin : (if mode = .pb ∨ mode = .mca then δ (mcaTy q) else 0) ≤ inbound mode * opError (mcaTy q) (δ (mcaTy q)) := by
      unfold inbound
      split_ifs
      · simpa using e1
      · simp
    refine ⟨A', B', le_trans eA (mul_le_mul_of_nonneg_right hin (abs_nonneg _)),
      le_trans eB (mul_le_mul_of_nonneg_right hin (abs_nonneg _)), fun hB' hR => ?_⟩
    obtain ⟨c0, c⟩ := c hB'
    rcases hR with hR | hR
    · obtain ⟨fy, ey⟩ := c0 hR
      exact ⟨fy, by rw [ey, hR]; simp⟩
    obtain ⟨fy, ey⟩ := c hR.1 hR.2
    refine ⟨fy, le_trans ey (mul_le_mul_of_nonneg_right ?_ (abs_nonneg _))⟩
    split_ifs
    · exact le_refl _
    · exact opError_mono _ h0
  · trivial
  · rintro rfl fA fB fC - - -
    rw [fmtOf_eq] at fA fB fC ⊢
    obtain ⟨A', B', C', eA, eB, eC, c0, c⟩ := h fA fB fC
    have e1 := le_opError (mcaTy q) h0
    have hin : (if mode = .pb ∨ mode = .mca then δ (mcaTy q) else 0) ≤ inbound mode * opError (mcaTy q) (δ (mcaTy q)) := by
      unfold inbound
      split_ifs
      · simpa using e1
      · simp
    refine ⟨A', B', C', le_trans eA (mul_le_mul_of_nonneg_right hin (abs_nonneg _)),
      le_trans eB (mul_le_mul_of_nonneg_right hin (abs_nonneg _)), le_trans eC (mul_le_mul_of_nonneg_right hin (abs_nonneg _)), fun hR => ?_⟩
    rcases hR with hR | hR
    · obtain ⟨fy, ey⟩ := c0 hR
      exact ⟨fy, by rw [ey, hR]; simp⟩
    obtain ⟨fy, ey⟩ := c hR.1 hR.2
    refine ⟨fy, le_trans ey (mul_le_mul_of_nonneg_right ?_ (abs_nonneg _))⟩
    split_ifs
    · exact le_refl _
    · exact opError_mono _ h0
  · trivial

/-! ## The machine, between two changes -/

/-- The error of an operation of the machine followed by a change of `d`. -/
def chain (F : Fmt) (d : ℚ) : ℚ := (1 + 2 ^ (-(F.mw : ℤ) - 1)) * (1 + d) - 1

theorem le_chain (F : Fmt) {d : ℚ} (h : 0 ≤ d) : d ≤ chain F d := by
  unfold chain
  have p1 : (0 : ℚ) < 2 ^ (-(F.mw : ℤ) - 1) := zpow_pos (by norm_num) _
  nlinarith

theorem unit_le (F : Fmt) : (2 : ℚ) ^ (-(F.mw : ℤ) - 1) ≤ 1 / 2 := by
  have : (2 : ℚ) ^ (-(F.mw : ℤ) - 1) ≤ 2 ^ (-1 : ℤ) := zpow_le_zpow_right₀ (by norm_num) (by omega)
  norm_num at this ⊢
  exact this

theorem machine_host (p : Wrapper.Prec) (a : Wrapper.Arith) (A B : Bits) (fA : A.Fin (fmtOf p)) (fB : B.Fin (fmtOf p))
    (h : a = .div → B.val (fmtOf p) ≠ 0) :
    Vprec.Host (fmtOf p) (realOp a (A.val (fmtOf p)) (B.val (fmtOf p))) (operatorC (fmtOf p) A B a) := by
  have hew : 2 ≤ (fmtOf p).ew := by cases p <;> decide
  have hu : (fmtOf p).uexp ≤ 0 := by cases p <;> decide
  cases a with
  | add => exact Vprec.host_fadd _ hew A B fA fB
  | sub => exact Vprec.host_fsub _ hew A B fA fB
  | mul => exact Vprec.host_fmul _ hew hu A B fA fB
  | div => exact Vprec.host_fdiv _ hew hu A B fA fB (h rfl)

theorem host_zero (F : Fmt) (w : Bits) (h : Vprec.Host F 0 w) : w.Fin F ∧ w.val F = 0 := by
  have hf : w.exp < F.expInf := by
    by_contra hc
    have h3 := (h.inf hc).2
    rw [abs_zero] at h3
    have : (0 : ℚ) < Vprec.overflowFrom F.mw F.bias := by
      unfold Vprec.overflowFrom
      have hm : (1 : ℚ) ≤ 2 ^ (F.mw + 1) := one_le_pow₀ (by norm_num)
      have : (0 : ℚ) < 2 ^ (F.mw + 2) - 1 := by rw [pow_succ 2 (F.mw + 1)]; linarith
      exact mul_pos this (zpow_pos (by norm_num) _)
    linarith
  have h0 := h.near hf ⟨false, 0, 0⟩ ⟨by positivity, by positivity⟩
  have e : Bits.val F ⟨false, 0, 0⟩ = 0 := by simp [Bits.val, Bits.sig]
  rw [e, sub_zero, sub_zero, abs_zero] at h0
  exact ⟨by unfold Bits.Fin; omega, abs_eq_zero.1 (le_antisymm h0 (abs_nonneg _))⟩

/-- The exponents next to the ends left out. -/
def Range.inner (S : Range) : Range := ⟨S.low + 1, S.high - 1⟩

/-- The result of an operation of the machine, changed by `d`. -/
theorem change_err (p : Wrapper.Prec) (d : ℚ) (h0 : 0 ≤ d) (S : Range) (hS : -((fmtOf p).bias : ℤ) ≤ S.low ∧ S.high ≤ (fmtOf p).bias + 1)
    (r : ℚ) (w y : Bits) (host : Vprec.Host (fmtOf p) r w)
    (hy : w.WF (fmtOf p) → w.Fin (fmtOf p) → S.Ok (w.val (fmtOf p)) →
      y.Fin (fmtOf p) ∧ |y.val (fmtOf p) - w.val (fmtOf p)| ≤ d * |w.val (fmtOf p)|) (hR : S.inner.Ok r) :
    y.Fin (fmtOf p) ∧ |y.val (fmtOf p) - r| ≤ chain (fmtOf p) d * |r| := by
  rcases hR with rfl | hR
  · obtain ⟨fw, ew⟩ := host_zero (fmtOf p) w host
    obtain ⟨fy, ey⟩ := hy host.wf fw (Or.inl ew)
    rw [ew] at ey
    exact ⟨fy, by simpa using ey⟩
  have pr := Range.has_pos hR
  obtain ⟨r1, r2⟩ := hR
  have r1 : (2 : ℚ) ^ (S.low + 1) ≤ |r| := r1
  have r2 : |r| < (2 : ℚ) ^ (S.high - 1) := r2
  obtain ⟨fw, ew⟩ := host_rel (fmtOf p) (by cases p <;> decide) r w host
    (le_trans (zpow_le_zpow_right₀ (by norm_num) (by omega)) r1)
    (lt_of_lt_of_le r2 (zpow_le_zpow_right₀ (by norm_num) (by omega)))
  have hu := unit_le (fmtOf p)
  have pu : (0 : ℚ) < 2 ^ (-((fmtOf p).mw : ℤ) - 1) := zpow_pos (by norm_num) _
  unfold chain
  generalize (2 : ℚ) ^ (-((fmtOf p).mw : ℤ) - 1) = u at *
  have e1 := abs_sub_abs_le_abs_sub (w.val (fmtOf p)) r
  have e2 := abs_sub_abs_le_abs_sub r (w.val (fmtOf p))
  rw [abs_sub_comm] at e2
  have hru : |r| * u ≤ |r| * (1 / 2) := mul_le_mul_of_nonneg_left hu pr.le
  rw [zpow_add_one₀ (by norm_num)] at r1
  have r2' : |r| * 2 < 2 ^ S.high := by
    rw [zpow_sub_one₀ (by norm_num)] at r2
    linarith
  obtain ⟨fy, ey⟩ := hy host.wf fw (Or.inr ⟨by linarith, by linarith⟩)
  refine ⟨fy, ?_⟩
  have e : y.val (fmtOf p) - r = (y.val (fmtOf p) - w.val (fmtOf p)) + (w.val (fmtOf p) - r) := by ring
  rw [e]
  refine le_trans (abs_add_le _ _) (le_trans (add_le_add ey ew) ?_)
  have : d * |w.val (fmtOf p)| ≤ d * (|r| * (1 + u)) := mul_le_mul_of_nonneg_left (by linarith) h0
  nlinarith

/-- Operands changed by `d`, an operation of the machine, and its result changed by `d`. -/
theorem steps_err (p : Wrapper.Prec) (inn : Nat) (d : ℚ) (h0 : 0 ≤ d) (S : Range)
    (hS : -((fmtOf p).bias : ℤ) ≤ S.low ∧ S.high ≤ (fmtOf p).bias + 1) (a : Wrapper.Arith) (A B A1 B1 y : Bits)
    (fA : A1.Fin (fmtOf p)) (fB : B1.Fin (fmtOf p))
    (eA : |A1.val (fmtOf p) - A.val (fmtOf p)| ≤ inn * d * |A.val (fmtOf p)|)
    (eB : |B1.val (fmtOf p) - B.val (fmtOf p)| ≤ inn * d * |B.val (fmtOf p)|)
    (hy : (operatorC (fmtOf p) A1 B1 a).WF (fmtOf p) → (operatorC (fmtOf p) A1 B1 a).Fin (fmtOf p) →
      S.Ok ((operatorC (fmtOf p) A1 B1 a).val (fmtOf p)) →
      y.Fin (fmtOf p) ∧ |y.val (fmtOf p) - (operatorC (fmtOf p) A1 B1 a).val (fmtOf p)| ≤ d * |(operatorC (fmtOf p) A1 B1 a).val (fmtOf p)|) :
    ∃ A' B' : ℚ, |A' - A.val (fmtOf p)| ≤ inn * chain (fmtOf p) d * |A.val (fmtOf p)| ∧
      |B' - B.val (fmtOf p)| ≤ inn * chain (fmtOf p) d * |B.val (fmtOf p)| ∧
      ((a = .div → B' ≠ 0) → S.inner.Ok (realOp a A' B') →
        y.Fin (fmtOf p) ∧ |y.val (fmtOf p) - realOp a A' B'| ≤ chain (fmtOf p) d * |realOp a A' B'|) := by
  have hc := le_chain (fmtOf p) h0
  have hin : (inn : ℚ) * d ≤ inn * chain (fmtOf p) d := mul_le_mul_of_nonneg_left hc (Nat.cast_nonneg _)
  exact ⟨A1.val (fmtOf p), B1.val (fmtOf p), le_trans eA (mul_le_mul_of_nonneg_right hin (abs_nonneg _)),
    le_trans eB (mul_le_mul_of_nonneg_right hin (abs_nonneg _)), fun hB0 hR =>
      change_err p d h0 S hS _ _ y (machine_host p a A1 B1 fA fB hB0) hy hR⟩

/-- The same of the multiply-add of the machine. -/
theorem fma_err (p : Wrapper.Prec) (inn : Nat) (d : ℚ) (h0 : 0 ≤ d) (S : Range)
    (hS : -((fmtOf p).bias : ℤ) ≤ S.low ∧ S.high ≤ (fmtOf p).bias + 1) (A B C A1 B1 C1 y : Bits)
    (fA : A1.Fin (fmtOf p)) (fB : B1.Fin (fmtOf p)) (fC : C1.Fin (fmtOf p))
    (eA : |A1.val (fmtOf p) - A.val (fmtOf p)| ≤ inn * d * |A.val (fmtOf p)|)
    (eB : |B1.val (fmtOf p) - B.val (fmtOf p)| ≤ inn * d * |B.val (fmtOf p)|)
    (eC : |C1.val (fmtOf p) - C.val (fmtOf p)| ≤ inn * d * |C.val (fmtOf p)|)
    (hy : (ffma (fmtOf p) A1 B1 C1).WF (fmtOf p) → (ffma (fmtOf p) A1 B1 C1).Fin (fmtOf p) → S.Ok ((ffma (fmtOf p) A1 B1 C1).val (fmtOf p)) →
      y.Fin (fmtOf p) ∧ |y.val (fmtOf p) - (ffma (fmtOf p) A1 B1 C1).val (fmtOf p)| ≤ d * |(ffma (fmtOf p) A1 B1 C1).val (fmtOf p)|) :
    ∃ A' B' C' : ℚ, |A' - A.val (fmtOf p)| ≤ inn * chain (fmtOf p) d * |A.val (fmtOf p)| ∧
      |B' - B.val (fmtOf p)| ≤ inn * chain (fmtOf p) d * |B.val (fmtOf p)| ∧
      |C' - C.val (fmtOf p)| ≤ inn * chain (fmtOf p) d * |C.val (fmtOf p)| ∧
      (S.inner.Ok (A' * B' + C') → y.Fin (fmtOf p) ∧ |y.val (fmtOf p) - (A' * B' + C')| ≤ chain (fmtOf p) d * |A' * B' + C'|) := by
  have hc := le_chain (fmtOf p) h0
  have hin : (inn : ℚ) * d ≤ inn * chain (fmtOf p) d := mul_le_mul_of_nonneg_left hc (Nat.cast_nonneg _)
  exact ⟨A1.val (fmtOf p), B1.val (fmtOf p), C1.val (fmtOf p), le_trans eA (mul_le_mul_of_nonneg_right hin (abs_nonneg _)),
    le_trans eB (mul_le_mul_of_nonneg_right hin (abs_nonneg _)), le_trans eC (mul_le_mul_of_nonneg_right hin (abs_nonneg _)), fun hR =>
      change_err p d h0 S hS _ _ y (host_ffma (fmtOf p) (by cases p <;> decide) (by cases p <;> decide) A1 B1 C1 fA fB fC) hy hR⟩

/-- The operands of a range that need not change. -/
theorem same_err (inn : Nat) {d : ℚ} (x : ℚ) (h0 : 0 ≤ d) : |x - x| ≤ inn * d * |x| := by
  rw [sub_self, abs_zero]
  positivity

/-! ## The IEEE backend -/

/-- All numbers of which the machine rounds the results of operations with the relative error of its type. -/
def normal (F : Fmt) : Range := ⟨1 - F.bias, F.bias⟩

/-- The operations are those of the machine. -/
def MachineContract : Contract
  | .arith a p, x, y => y = operatorC (fmtOf p) (operand (fmtOf p) x 0) (operand (fmtOf p) x 1) a
  | .fma p, x, y => y = ffma (fmtOf p) (operand (fmtOf p) x 0) (operand (fmtOf p) x 1) (operand (fmtOf p) x 2)
  | _, _, _ => True

theorem normal_inner (F : Fmt) : Range.inner ⟨-(F.bias : ℤ), F.bias + 1⟩ = normal F := by
  unfold Range.inner normal
  simp only [Range.mk.injEq]
  omega

theorem machine_err (p : Wrapper.Prec) (a : Wrapper.Arith) (A B : Bits) (fA : A.Fin (fmtOf p)) (fB : B.Fin (fmtOf p)) :
    ∃ A' B' : ℚ, |A' - A.val (fmtOf p)| ≤ (0 : ℕ) * chain (fmtOf p) 0 * |A.val (fmtOf p)| ∧
      |B' - B.val (fmtOf p)| ≤ (0 : ℕ) * chain (fmtOf p) 0 * |B.val (fmtOf p)| ∧
      ((a = .div → B' ≠ 0) → (normal (fmtOf p)).Ok (realOp a A' B') → (operatorC (fmtOf p) A B a).Fin (fmtOf p) ∧
        |(operatorC (fmtOf p) A B a).val (fmtOf p) - realOp a A' B'| ≤ chain (fmtOf p) 0 * |realOp a A' B'|) := by
  rw [← normal_inner]
  exact steps_err p 0 0 le_rfl ⟨-((fmtOf p).bias : ℤ), (fmtOf p).bias + 1⟩ ⟨le_rfl, le_rfl⟩ a A B A B
    (operatorC (fmtOf p) A B a) fA fB (same_err 0 _ le_rfl) (same_err 0 _ le_rfl) (fun _ hf _ => ⟨hf, by simp⟩)

theorem machine_contract (p : Wrapper.Prec) (I : Range) (o : Wrapper.OpId) (x : List (BitVec 64)) (y : Bits) (h : MachineContract o x y) :
    SignedContract p 0 (chain (fmtOf p) 0) I (normal (fmtOf p)) o x y := by
  rcases o with ⟨a, q⟩ | q | q | _
  · rintro rfl fA fB - -
    obtain rfl := h
    exact machine_err q a _ _ fA fB
  · trivial
  · rintro rfl fA fB fC - - -
    obtain rfl := h
    rw [← normal_inner]
    exact fma_err q 0 0 le_rfl ⟨-((fmtOf q).bias : ℤ), (fmtOf q).bias + 1⟩ ⟨le_rfl, le_rfl⟩ _ _ _ _ _ _ _ fA fB fC
      (same_err 0 _ le_rfl) (same_err 0 _ le_rfl) (same_err 0 _ le_rfl) (fun _ hf _ => ⟨hf, by simp⟩)
  · trivial

/-- **C98** The IEEE backend: half a unit in the last place, for numbers of any sign. -/
theorem C98_ieee_partial (p : Wrapper.Prec) (count : Ieee.Op → σ → σ) (fl : Flags) (hfc : fl.fcmp = false)
    (bs : List (Wrapper.Backend σ κ)) (ctx : Nat → κ) :
    Meets fl (SignedContract p 0 (chain (fmtOf p) 0) (finite (fmtOf p)) (normal (fmtOf p))) (bs ++ [ieeeBackend count]) ctx := by
  have hmw : ∀ p, 1 ≤ (fmtOf p).mw := by intro p; cases p <;> decide
  refine Meets.mono (C := MachineContract) (meets_last fl _ _ (fun o ho => ?_) bs ctx) (machine_contract p _)
  rcases o with ⟨a, q⟩ | q | q | _
  · exact ⟨_, rfl, fun x k s => ⟨_, _, operatorC_wf _ (hmw q) _ _ (operand_wf _ _ _) (operand_wf _ _ _) a, rfl, fun c => rfl⟩⟩
  · simp [Wrapper.emitted, hfc] at ho
  · exact ⟨_, rfl, fun x k s => ⟨_, _, ffma_wf _ (hmw q) _ _ _ (operand_wf _ _ _), rfl, fun c => rfl⟩⟩
  · exact ⟨_, rfl, fun x k s => ⟨_, _, fconv_wf _ _ (by decide) _, trivial, fun c => rfl⟩⟩

/-! ## Cancellation -/

theorem exp_le_of_val_le (F : Fmt) (x y : Bits) (hy : y.WF F) (h0 : 0 < x.val F) (h : x.val F ≤ y.val F) : x.exp ≤ y.exp := by
  by_contra hc
  have hm : x.mag F ≤ y.mag F := by
    have h1 : |x.val F| ≤ |y.val F| := by rw [abs_of_pos h0, abs_of_pos (by linarith)]; exact h
    rw [Vprec.abs_val, Vprec.abs_val] at h1
    have := le_of_mul_le_mul_right h1 (zpow_pos (by norm_num) _)
    exact_mod_cast this
  have hlt : y.mag F < x.mag F := by
    have s1 : 2 ^ F.mw ≤ x.sig F := by unfold Bits.sig; rw [if_neg (by omega)]; omega
    have s2 : y.sig F < 2 ^ F.mw * 2 := by unfold Bits.sig; have := hy.2; split_ifs <;> omega
    unfold Bits.mag
    by_cases hy0 : y.exp = 0
    · have s3 : y.sig F < 2 ^ F.mw := by unfold Bits.sig; rw [if_pos hy0]; exact hy.2
      rw [hy0]
      calc y.sig F * 2 ^ (0 - 1) = y.sig F := by simp
        _ < x.sig F := by omega
        _ ≤ x.sig F * 2 ^ (x.exp - 1) := Nat.le_mul_of_pos_right _ (by positivity)
    · calc y.sig F * 2 ^ (y.exp - 1) < 2 ^ F.mw * 2 * 2 ^ (y.exp - 1) := Nat.mul_lt_mul_of_pos_right s2 (by positivity)
        _ = 2 ^ F.mw * 2 ^ (y.exp - 1 + 1) := by rw [pow_succ]; ring
        _ ≤ 2 ^ F.mw * 2 ^ (x.exp - 1) := Nat.mul_le_mul_left _ (Nat.pow_le_pow_right (by norm_num) (by omega))
        _ ≤ x.sig F * 2 ^ (x.exp - 1) := Nat.mul_le_mul_right _ s1
  omega

/-- Sums of positive numbers lose no bits. -/
theorem sum_exp (p : Wrapper.Prec) (A B : Bits) (wA : A.WF (fmtOf p)) (wB : B.WF (fmtOf p)) (fA : A.Fin (fmtOf p)) (fB : B.Fin (fmtOf p))
    (pA : 0 < A.val (fmtOf p)) (pB : 0 < B.val (fmtOf p)) :
    A.exp ≤ (fadd (fmtOf p) A B).exp ∧ B.exp ≤ (fadd (fmtOf p) A B).exp := by
  have host : Vprec.Host (fmtOf p) (A.val (fmtOf p) + B.val (fmtOf p)) (fadd (fmtOf p) A B) :=
    machine_host p .add A B fA fB (by simp)
  by_cases hf : (fadd (fmtOf p) A B).exp < (fmtOf p).expInf
  · have n1 := host.near hf A wA
    have n2 := host.near hf B wB
    generalize fadd (fmtOf p) A B = z at *
    have e1 : |A.val (fmtOf p) - (A.val (fmtOf p) + B.val (fmtOf p))| = B.val (fmtOf p) := by
      rw [show A.val (fmtOf p) - (A.val (fmtOf p) + B.val (fmtOf p)) = -B.val (fmtOf p) by ring, abs_neg, abs_of_pos pB]
    have e2 : |B.val (fmtOf p) - (A.val (fmtOf p) + B.val (fmtOf p))| = A.val (fmtOf p) := by
      rw [show B.val (fmtOf p) - (A.val (fmtOf p) + B.val (fmtOf p)) = -A.val (fmtOf p) by ring, abs_neg, abs_of_pos pA]
    rw [e1] at n1
    rw [e2] at n2
    have m1 := (abs_le.1 n1).1
    have m2 := (abs_le.1 n2).1
    exact ⟨exp_le_of_val_le _ A z host.wf pA (by linarith), exp_le_of_val_le _ B z host.wf pB (by linarith)⟩
  · have := fin_lt wA fA
    have := fin_lt wB fB
    omega

/-- **C98** The cancellation backend: half a unit in the last place too, since nothing is cancelled. -/
theorem C98_cancellation_partial (p : Wrapper.Prec) (g : Mca.Gen σ) (hg : ∀ s, Mca.drawn (g.next s).1 ≠ 2 ^ 51) (cfg : Cancel.Ctx)
    (ht : 1 ≤ cfg.tolerance) (fl : Flags) (hfc : fl.fcmp = false) (bs : List (Wrapper.Backend σ κ)) (ctx : Nat → κ) :
    Meets fl (ErrContract p 0 (chain (fmtOf p) 0) (finite (fmtOf p)) (normal (fmtOf p))) (bs ++ [cancelBackend g cfg]) ctx := by
  refine (C94_cancellation_partial g hg cfg ht fl hfc bs ctx).mono fun o x y h => ?_
  rcases o with ⟨a, q⟩ | q | q | _
  · rintro rfl hs fA fB iA iB
    have key : y = operatorC (fmtOf q) (operand (fmtOf q) x 0) (operand (fmtOf q) x 1) a := by
      cases a with
      | add =>
        obtain ⟨h1, -⟩ := h
        have := sum_exp q _ _ (operand_wf _ _ _) (operand_wf _ _ _) fA fB (Range.has_pos iA) (Range.has_pos iB)
        refine h1 ?_
        rw [if_pos rfl]
        omega
      | sub => exact absurd rfl hs
      | mul => exact h
      | div => exact h
    rw [key]
    exact signed_err q 0 _ (by simp) (finite (fmtOf q)) (normal (fmtOf q)) (.arith a q) x _
      (machine_contract q _ (.arith a q) x _ rfl) rfl hs fA fB iA iB
  all_goals trivial

/-! ## Bitmask -/

theorem keeps_rel (F : Fmt) (t : Nat) (ht : 1 ≤ t) (x y : Bits) (h : Bitmask.Keeps F t x y) :
    |y.val F - x.val F| ≤ 2 ^ (1 - (t : ℤ)) * |x.val F| := by
  obtain ⟨-, h1, h2, h3, -⟩ := h
  have hl : y.lsb F = x.lsb F := by unfold Bits.lsb; rw [h2]
  have pl : (0 : ℚ) < 2 ^ x.lsb F := zpow_pos (by norm_num) _
  have hs : |sgn x.sign| = 1 := by unfold sgn; split_ifs <;> simp
  have v1 : |x.val F| = x.sig F * 2 ^ x.lsb F := by
    unfold Bits.val
    rw [abs_mul, abs_mul, hs, one_mul, abs_of_pos pl, abs_of_nonneg (by positivity)]
  have v2 : |y.val F - x.val F| = |(y.sig F : ℚ) - x.sig F| * 2 ^ x.lsb F := by
    unfold Bits.val
    rw [h1, hl, show sgn x.sign * (y.sig F : ℚ) * 2 ^ x.lsb F - sgn x.sign * x.sig F * 2 ^ x.lsb F =
      sgn x.sign * ((y.sig F : ℚ) - x.sig F) * 2 ^ x.lsb F by ring, abs_mul, abs_mul, hs, one_mul, abs_of_pos pl]
  rw [v1, v2, ← mul_assoc]
  refine mul_le_mul_of_nonneg_right ?_ pl.le
  unfold Bitmask.dropped at h3
  by_cases hd : Nat.log2 (x.sig F) + 1 ≤ t
  · rw [Nat.sub_eq_zero_of_le hd, Nat.pow_zero, Nat.div_one, Nat.div_one] at h3
    rw [h3, sub_self, abs_zero]
    positivity
  · obtain ⟨k, hk⟩ : ∃ k, k = Nat.log2 (x.sig F) + 1 - t := ⟨_, rfl⟩
    rw [← hk] at h3
    have d1 := Nat.div_add_mod (x.sig F) (2 ^ k)
    have d2 := Nat.div_add_mod (y.sig F) (2 ^ k)
    have m1 := Nat.mod_lt (x.sig F) (show 0 < 2 ^ k by positivity)
    have m2 := Nat.mod_lt (y.sig F) (show 0 < 2 ^ k by positivity)
    rw [h3] at d2
    have hdiff : |(y.sig F : ℤ) - x.sig F| ≤ 2 ^ k := by
      rw [abs_le]
      have : ((2 ^ k : ℕ) : ℤ) = 2 ^ k := by push_cast; rfl
      constructor <;> omega
    have hq : |(y.sig F : ℚ) - x.sig F| ≤ 2 ^ k := by exact_mod_cast hdiff
    refine le_trans hq ?_
    have e : (2 : ℚ) ^ k = 2 ^ (1 - (t : ℤ)) * 2 ^ Nat.log2 (x.sig F) := by
      rw [← zpow_natCast, ← zpow_natCast, ← zpow_add₀ (by norm_num)]
      congr 1
      omega
    rw [e]
    refine mul_le_mul_of_nonneg_left ?_ (zpow_pos (by norm_num) _).le
    have hsig : x.sig F ≠ 0 := by
      intro hc
      rw [hc] at hd
      exact hd (by simpa using ht)
    exact_mod_cast Nat.log2_self_le hsig

/-- The precision bitmask is configured with for a type. -/
def bitmaskPrec (cfg : Bitmask.Ctx) (p : Wrapper.Prec) : Nat := if fmtOf p = b32 then (cfg.prec .f32).toNat else (cfg.prec .f64).toNat

/-- **C98** Bitmask at precision `t`: `2^(1-t)`, on operands too except in ob mode. -/
theorem C98_bitmask_partial (p : Wrapper.Prec) (g : Bitmask.Gen σ) (cfg : Bitmask.Ctx) (hap : ∀ T, Bitmask.Applied T cfg)
    (ht : 1 ≤ bitmaskPrec cfg p) (hd : cfg.daz = false) (hf : cfg.ftz = false) (fl : Flags) (hfc : fl.fcmp = false) (hca : fl.cast = false)
    (bs : List (Wrapper.Backend σ κ)) (ctx : Nat → κ) :
    Meets fl (SignedContract p (if cfg.mode = .ob then 0 else 1) (chain (fmtOf p) (2 ^ (1 - (bitmaskPrec cfg p : ℤ)))) (finite (fmtOf p)) (normal (fmtOf p)))
      (bs ++ [bitmaskBackend g cfg]) ctx := by
  refine (C94_bitmask_partial g cfg hap hd hf fl hfc hca bs ctx).mono fun o x y h => ?_
  rcases o with ⟨a, q⟩ | q | q | _
  · rintro rfl fA fB - -
    obtain ⟨args, k1, k2, k3, -⟩ := h
    have hd0 : (0 : ℚ) < 2 ^ (1 - (bitmaskPrec cfg q : ℤ)) := zpow_pos (by norm_num) _
    replace k1 : List.Forall₂ (Bitmask.Keeps (fmtOf q) (bitmaskPrec cfg q)) [operand (fmtOf q) x 0, operand (fmtOf q) x 1] args := k1
    replace k2 : Bitmask.Keeps (fmtOf q) (bitmaskPrec cfg q) (exactly (.arith a q) args) y := k2
    replace k3 : cfg.mode = .ob → args = [operand (fmtOf q) x 0, operand (fmtOf q) x 1] := k3
    obtain ⟨A1, B1, rfl, kA, kB⟩ : ∃ A1 B1, args = [A1, B1] ∧ Bitmask.Keeps (fmtOf q) (bitmaskPrec cfg q) (operand (fmtOf q) x 0) A1 ∧
        Bitmask.Keeps (fmtOf q) (bitmaskPrec cfg q) (operand (fmtOf q) x 1) B1 := by
      cases k1 with
      | cons a1 k1 => cases k1 with
        | cons a2 k1 => cases k1; exact ⟨_, _, rfl, a1, a2⟩
    have he : exactly (.arith a q) [A1, B1] = operatorC (fmtOf q) A1 B1 a := by cases a <;> rfl
    rw [he] at k2
    have fin : ∀ u v : Bits, Bitmask.Keeps (fmtOf q) (bitmaskPrec cfg q) u v → u.Fin (fmtOf q) → v.Fin (fmtOf q) := by
      intro u v k hu
      unfold Bits.Fin at hu ⊢
      rw [k.2.2.1]; exact hu
    rw [← normal_inner]
    refine steps_err q _ _ hd0.le _ ⟨le_rfl, le_rfl⟩ a _ _ A1 B1 y (fin _ _ kA fA) (fin _ _ kB fB) ?_ ?_
      (fun _ hf hS => ⟨fin _ _ k2 hf, keeps_rel _ _ ht _ _ k2⟩)
    · split_ifs with hm
      · have := k3 hm
        rw [List.cons.injEq] at this
        rw [this.1]
        exact same_err 0 _ hd0.le
      · rw [Nat.cast_one, one_mul]; exact keeps_rel _ _ ht _ _ kA
    · split_ifs with hm
      · have := k3 hm
        simp only [List.cons.injEq] at this
        rw [this.2.1]
        exact same_err 0 _ hd0.le
      · rw [Nat.cast_one, one_mul]; exact keeps_rel _ _ ht _ _ kB
  · trivial
  · rintro rfl fA fB fC - - -
    obtain ⟨args, k1, k2, k3, -⟩ := h
    have hd0 : (0 : ℚ) < 2 ^ (1 - (bitmaskPrec cfg q : ℤ)) := zpow_pos (by norm_num) _
    replace k1 : List.Forall₂ (Bitmask.Keeps (fmtOf q) (bitmaskPrec cfg q)) [operand (fmtOf q) x 0, operand (fmtOf q) x 1, operand (fmtOf q) x 2] args := k1
    replace k2 : Bitmask.Keeps (fmtOf q) (bitmaskPrec cfg q) (exactly (.fma q) args) y := k2
    replace k3 : cfg.mode = .ob → args = [operand (fmtOf q) x 0, operand (fmtOf q) x 1, operand (fmtOf q) x 2] := k3
    obtain ⟨A1, B1, C1, rfl, kA, kB, kC⟩ : ∃ A1 B1 C1, args = [A1, B1, C1] ∧ Bitmask.Keeps (fmtOf q) (bitmaskPrec cfg q) (operand (fmtOf q) x 0) A1 ∧
        Bitmask.Keeps (fmtOf q) (bitmaskPrec cfg q) (operand (fmtOf q) x 1) B1 ∧ Bitmask.Keeps (fmtOf q) (bitmaskPrec cfg q) (operand (fmtOf q) x 2) C1 := by
      cases k1 with
      | cons a1 k1 => cases k1 with
        | cons a2 k1 => cases k1 with
          | cons a3 k1 => cases k1; exact ⟨_, _, _, rfl, a1, a2, a3⟩
    have he : exactly (.fma q) [A1, B1, C1] = ffma (fmtOf q) A1 B1 C1 := rfl
    rw [he] at k2
    have fin : ∀ u v : Bits, Bitmask.Keeps (fmtOf q) (bitmaskPrec cfg q) u v → u.Fin (fmtOf q) → v.Fin (fmtOf q) := by
      intro u v k hu
      unfold Bits.Fin at hu ⊢
      rw [k.2.2.1]; exact hu
    have err : ∀ u v : Bits, Bitmask.Keeps (fmtOf q) (bitmaskPrec cfg q) u v → (cfg.mode = .ob → v = u) →
        |v.val (fmtOf q) - u.val (fmtOf q)| ≤ ((if cfg.mode = .ob then 0 else 1 : ℕ) : ℚ) * 2 ^ (1 - (bitmaskPrec cfg q : ℤ)) * |u.val (fmtOf q)| := by
      intro u v k hm
      split_ifs with h
      · rw [hm h]; exact same_err 0 _ hd0.le
      · rw [Nat.cast_one, one_mul]; exact keeps_rel _ _ ht _ _ k
    rw [← normal_inner]
    refine fma_err q _ _ hd0.le _ ⟨le_rfl, le_rfl⟩ _ _ _ A1 B1 C1 y (fin _ _ kA fA) (fin _ _ kB fB) (fin _ _ kC fC) (err _ _ kA fun hm => ?_)
      (err _ _ kB fun hm => ?_) (err _ _ kC fun hm => ?_) (fun _ hf hS => ⟨fin _ _ k2 hf, keeps_rel _ _ ht _ _ k2⟩)
    all_goals
      have := k3 hm
      simp only [List.cons.injEq] at this
      tauto
  · trivial

/-! ## VPREC -/

/-- A nearest number of a format of `t` bits, when there is no underflow. -/
theorem fmt_near (t : Nat) (emin : ℤ) (x q : ℚ) (h : Vprec.Spec.Nearest t emin x q) (hx : (2 : ℚ) ^ emin ≤ |x|) :
    |q - x| ≤ 2 ^ (-(t : ℤ) - 1) * |x| := by
  have hx0 : 0 < |x| := lt_of_lt_of_le (zpow_pos (by norm_num) _) hx
  obtain ⟨e, he1, he2⟩ := exists_mem_Ico_zpow hx0 (show (1 : ℚ) < 2 by norm_num)
  have hlo : emin ≤ e := by
    have := (zpow_lt_zpow_iff_right₀ (by norm_num : (1 : ℚ) < 2)).1 (lt_of_le_of_lt hx he2)
    omega
  have hu : (0 : ℚ) < 2 ^ (e - t) := zpow_pos (by norm_num) _
  have key : ∃ z, Vprec.Spec.InFmt t emin z ∧ |x - z| ≤ 2 ^ (e - t) / 2 := by
    have hr := abs_sub_round (x / 2 ^ (e - t))
    have hd : |x - ((round (x / 2 ^ (e - t)) : ℤ) : ℚ) * 2 ^ (e - t)| ≤ 2 ^ (e - t) / 2 := by
      have : x - ((round (x / 2 ^ (e - t)) : ℤ) : ℚ) * 2 ^ (e - t) = (x / 2 ^ (e - t) - round (x / 2 ^ (e - t))) * 2 ^ (e - t) := by
        field_simp
      rw [this, abs_mul, abs_of_pos hu]
      have := mul_le_mul_of_nonneg_right hr hu.le
      linarith
    have hN : |round (x / 2 ^ (e - t))| ≤ 2 ^ (t + 1) := by
      have hq : |x / 2 ^ (e - t)| < 2 ^ (t + 1) := by
        rw [abs_div, abs_of_pos hu, div_lt_iff₀ hu, ← zpow_natCast, ← zpow_add₀ (by norm_num)]
        rw [show ((t + 1 : ℕ) : ℤ) + (e - t) = e + 1 by push_cast; ring]
        exact he2
      have : |((round (x / 2 ^ (e - t)) : ℤ) : ℚ)| < 2 ^ (t + 1) + 1 := by
        have := abs_sub_abs_le_abs_sub ((round (x / 2 ^ (e - t)) : ℤ) : ℚ) (x / 2 ^ (e - t))
        rw [abs_sub_comm] at this
        linarith
      have h3 : |round (x / 2 ^ (e - t))| < 2 ^ (t + 1) + 1 := by exact_mod_cast this
      omega
    generalize round (x / 2 ^ (e - t)) = N at hd hN
    by_cases hlt : |N| < 2 ^ (t + 1)
    · exact ⟨_, ⟨N, e - t, hlt, by omega, rfl⟩, hd⟩
    · have hN2 : |N| = 2 ^ (t + 1) := by omega
      obtain ⟨s, hs, hs2⟩ : ∃ s : ℤ, N = s * 2 ^ t * 2 ∧ |s| = 1 := by
        rcases abs_choice N with h | h
        · exact ⟨1, by rw [h] at hN2; rw [hN2, pow_succ]; ring, by simp⟩
        · refine ⟨-1, ?_, by simp⟩
          rw [h, pow_succ] at hN2
          linarith
      refine ⟨N * 2 ^ (e - t), ⟨s * 2 ^ t, e - t + 1, ?_, by omega, ?_⟩, hd⟩
      · rw [abs_mul, hs2, one_mul, abs_of_pos (by positivity)]
        exact pow_lt_pow_right₀ (by norm_num) (by omega)
      · rw [hs, zpow_add_one₀ (by norm_num)]
        push_cast
        ring
  obtain ⟨z, z1, z2⟩ := key
  rw [abs_sub_comm]
  refine le_trans (le_trans (h.2 z z1) z2) ?_
  have : (2 : ℚ) ^ (e - t) / 2 = 2 ^ (-(t : ℤ) - 1) * 2 ^ e := by
    rw [div_eq_mul_inv, ← zpow_sub_one₀ (by norm_num), ← zpow_add₀ (by norm_num)]
    congr 1
    ring
  rw [this]
  exact mul_le_mul_of_nonneg_left he1 (zpow_pos (by norm_num) _).le

/-- The exponents of a format with `r` bits of exponent. -/
def formatRange (r : Nat) : Range := ⟨Vprec.Spec.emin r, Vprec.Spec.emax r⟩

/-- One rounding of VPREC. -/
theorem vprec_near (sem : ShiftSem) (F : Fmt) (w : Nat) (hF : Vprec.IsC F w) (x y : Bits) (inp : Bool) (c : Vprec.Ctx) (r t : Nat)
    (habs : c.absErr = false) (hr : 2 ≤ r) (hr2 : r ≤ F.ew) (hp1 : 1 ≤ t) (hpz : t ≤ F.mw) (hp : t < F.mw ∨ sem = .wrap)
    (hx : x.WF F) (hfin : x.Fin F) (h : Vprec.roundBinary sem F w x inp c r t = .ok y) (hS : (formatRange r).Ok (x.val F)) :
    y.Fin F ∧ |y.val F - x.val F| ≤ 2 ^ (-(t : ℤ) - 1) * |x.val F| := by
  obtain ⟨z, hz, hall⟩ := Vprec.roundBinary_all sem F w hF x inp c r t habs hr hr2 hp1 hpz hp hx hfin
  rw [hz] at h
  obtain rfl := Outcome.ok.inj h
  obtain ⟨-, -, -, hcmin, -⟩ := Vprec.range_facts F w hF r t hr hr2 hpz
  rcases hS with hS | hS
  · have hrnd : Vprec.rndAll F r t ((c.daz && inp) || (c.ftz && !inp)) x = 0 := by
      unfold Vprec.rndAll
      rw [if_pos (Or.inl hS)]
    obtain ⟨f1, f2⟩ := hall.fin (by rw [hrnd, abs_zero]; positivity)
    refine ⟨f1, ?_⟩
    rw [f2, hrnd, hS]
    simp
  have p0 := Range.has_pos hS
  obtain ⟨s1, s2⟩ := hS
  have s1 : (2 : ℚ) ^ Vprec.Spec.emin r ≤ |x.val F| := s1
  have s2 : |x.val F| < 2 ^ Vprec.Spec.emax r := s2
  have hrnd : Vprec.rndAll F r t ((c.daz && inp) || (c.ftz && !inp)) x = Vprec.rndVal F r t x := by
    unfold Vprec.rndAll
    rw [if_neg]
    rintro (h | ⟨-, h⟩)
    · exact abs_pos.1 p0 h
    · linarith
  have hne : x.mag F ≠ 0 := by
    rw [Ne, ← Vprec.val_eq_zero]
    exact abs_pos.1 p0
  have hn := fmt_near t _ _ _ (Vprec.rndVal_nearest F r t x hne hcmin) s1
  have ht : (2 : ℚ) ^ (-(t : ℤ) - 1) ≤ 1 / 2 := by
    have : (2 : ℚ) ^ (-(t : ℤ) - 1) ≤ 2 ^ (-1 : ℤ) := zpow_le_zpow_right₀ (by norm_num) (by omega)
    norm_num at this ⊢
    exact this
  have := mul_le_mul_of_nonneg_right ht p0.le
  have hlt : |Vprec.rndAll F r t ((c.daz && inp) || (c.ftz && !inp)) x| < 2 ^ (Vprec.Spec.emax r + 1) := by
    rw [hrnd, zpow_add_one₀ (by norm_num)]
    have := abs_sub_abs_le_abs_sub (Vprec.rndVal F r t x) (x.val F)
    linarith
  obtain ⟨f1, f2⟩ := hall.fin hlt
  exact ⟨f1, by rw [f2, hrnd]; exact hn⟩

/-- A call in any mode: the operands, rounded or not, and the result, rounded or not. -/
theorem vprec_any (sem : ShiftSem) (hw32 hw64 : Vprec.Ops.HW) (c : Vprec.Config.Cfg) (k : Vprec.Ops.Call)
    (v : Vprec.Ops.View) (hv : Vprec.Ops.view hw32 hw64 c k = some v)
    (hround : ∀ x inp, x.WF v.F → ∃ y, Vprec.roundBinary sem v.F v.w x inp c.ctx v.range.toNat v.prec = .ok y ∧ y.WF v.F)
    (hargs : ∀ x ∈ v.args, x.WF v.F) (hhw : ∀ l, (∀ x ∈ l, x.WF v.F) → (v.hw l).WF v.F) :
    ∃ used, List.Forall₂ (fun x x' => (Vprec.Ops.RoundsOperands c.mode →
        Vprec.roundBinary sem v.F v.w x true c.ctx v.range.toNat v.prec = .ok x') ∧ (¬ Vprec.Ops.RoundsOperands c.mode → x' = x)) v.args used ∧
      ∃ y, Vprec.Ops.exec sem hw32 hw64 c k = .ok y ∧ y.WF v.F ∧
        (Vprec.Ops.RoundsResult c.mode → Vprec.roundBinary sem v.F v.w (v.hw used) false c.ctx v.range.toNat v.prec = .ok y) ∧
        (¬ Vprec.Ops.RoundsResult c.mode → y = v.hw used) := by
  have hlist : ∀ l : List Bits, (∀ x ∈ l, x.WF v.F) → ∃ l', List.Forall₂
      (fun x x' => Vprec.roundBinary sem v.F v.w x true c.ctx v.range.toNat v.prec = .ok x') l l' ∧ ∀ x ∈ l', x.WF v.F := by
    intro l
    induction l with
    | nil => intro _; exact ⟨[], .nil, by simp⟩
    | cons a l ih =>
      intro h
      obtain ⟨l', hl', hw'⟩ := ih (fun x hx => h x (List.mem_cons_of_mem _ hx))
      obtain ⟨a', ha', hwa⟩ := hround a true (h a List.mem_cons_self)
      exact ⟨a' :: l', .cons ha' hl', by
        intro x hx
        rcases List.mem_cons.1 hx with rfl | hx
        exacts [hwa, hw' x hx]⟩
  have last : ∀ used, (∀ x ∈ used, x.WF v.F) →
      ((Vprec.Ops.RoundsOperands c.mode → Vprec.Ops.AllRounded sem c v used) ∧ (¬ Vprec.Ops.RoundsOperands c.mode → used = v.args)) →
      ∃ y, Vprec.Ops.exec sem hw32 hw64 c k = .ok y ∧ y.WF v.F ∧
        (Vprec.Ops.RoundsResult c.mode → Vprec.roundBinary sem v.F v.w (v.hw used) false c.ctx v.range.toNat v.prec = .ok y) ∧
        (¬ Vprec.Ops.RoundsResult c.mode → y = v.hw used) := by
    intro used hwf hu
    obtain ⟨m1, m2⟩ := Vprec.Ops.C09_modes sem hw32 hw64 c k v hv used hu
    by_cases hr : Vprec.Ops.RoundsResult c.mode
    · obtain ⟨y, hy, wy⟩ := hround (v.hw used) false (hhw _ hwf)
      exact ⟨y, (m2 hr).trans hy, wy, fun _ => hy, fun h => absurd hr h⟩
    · exact ⟨_, m1 hr, hhw _ hwf, fun h => absurd h hr, fun _ => rfl⟩
  by_cases ho : Vprec.Ops.RoundsOperands c.mode
  · obtain ⟨l', hl', hw'⟩ := hlist v.args hargs
    exact ⟨l', hl'.imp fun x y h => ⟨fun _ => h, fun h => absurd ho h⟩, last l' hw' ⟨fun _ => hl', fun h => absurd ho h⟩⟩
  · refine ⟨v.args, ?_, last v.args hargs ⟨fun h => absurd h ho, fun _ => rfl⟩⟩
    rw [List.forall₂_same]
    exact fun x _ => ⟨fun h => absurd h ho, fun _ => rfl⟩

/-- An operand, rounded or not. -/
theorem vprec_operand (sem : ShiftSem) (cfg : Vprec.Config.Cfg) (hrel : cfg.absErr = false) (q : Wrapper.Prec) (w : Nat)
    (hIs : Vprec.IsC (fmtOf q) w) (r t : Nat) (hr : 2 ≤ r) (hr2 : r ≤ (fmtOf q).ew) (hp1 : 1 ≤ t) (hpz : t ≤ (fmtOf q).mw)
    (hp : t < (fmtOf q).mw ∨ sem = .wrap) (X X1 : Bits) (wX : X.WF (fmtOf q)) (fX : X.Fin (fmtOf q)) (iX : (formatRange r).Ok (X.val (fmtOf q)))
    (hX : (Vprec.Ops.RoundsOperands cfg.mode → Vprec.roundBinary sem (fmtOf q) w X true cfg.ctx r t = .ok X1) ∧
      (¬ Vprec.Ops.RoundsOperands cfg.mode → X1 = X)) :
    X1.Fin (fmtOf q) ∧ |X1.val (fmtOf q) - X.val (fmtOf q)| ≤
      (if cfg.mode = .ib ∨ cfg.mode = .full then 1 else 0 : ℕ) * 2 ^ (-(t : ℤ) - 1) * |X.val (fmtOf q)| := by
  by_cases ho : Vprec.Ops.RoundsOperands cfg.mode
  · have := vprec_near sem (fmtOf q) w hIs X X1 true cfg.ctx r t hrel hr hr2 hp1 hpz hp wX fX (hX.1 ho) iX
    rw [if_pos (show cfg.mode = .ib ∨ cfg.mode = .full from ho), Nat.cast_one, one_mul]
    exact this
  · rw [hX.2 ho]
    exact ⟨fX, same_err _ _ (zpow_pos (by norm_num) _).le⟩

theorem vprec_call (sem : ShiftSem) (cfg : Vprec.Config.Cfg) (hrel : cfg.absErr = false) (q : Wrapper.Prec) (w : Nat)
    (hIs : Vprec.IsC (fmtOf q) w) (r t : Nat) (hr : 2 ≤ r) (hr2 : r ≤ (fmtOf q).ew) (hp1 : 1 ≤ t) (hpz : t ≤ (fmtOf q).mw)
    (hp : t < (fmtOf q).mw ∨ sem = .wrap) (k : Vprec.Ops.Call) (a : Wrapper.Arith) (A B : Bits) (wA : A.WF (fmtOf q)) (wB : B.WF (fmtOf q))
    (hv : Vprec.Ops.view (vprecHW b32) (vprecHW b64) cfg k =
      some ⟨fmtOf q, w, r, t, [A, B], Vprec.Ops.apply2 ((vprecHW (fmtOf q)).op2 (vprecOp a))⟩) :
    ∃ y, Vprec.Ops.exec sem (vprecHW b32) (vprecHW b64) cfg k = .ok y ∧ y.WF (fmtOf q) ∧
      (A.Fin (fmtOf q) → B.Fin (fmtOf q) → (formatRange r).Ok (A.val (fmtOf q)) → (formatRange r).Ok (B.val (fmtOf q)) →
        ∃ A' B' : ℚ, |A' - A.val (fmtOf q)| ≤ (if cfg.mode = .ib ∨ cfg.mode = .full then 1 else 0 : ℕ) * chain (fmtOf q) (2 ^ (-(t : ℤ) - 1)) * |A.val (fmtOf q)| ∧
          |B' - B.val (fmtOf q)| ≤ (if cfg.mode = .ib ∨ cfg.mode = .full then 1 else 0 : ℕ) * chain (fmtOf q) (2 ^ (-(t : ℤ) - 1)) * |B.val (fmtOf q)| ∧
          ((a = .div → B' ≠ 0) → (formatRange r).inner.Ok (realOp a A' B') →
            y.Fin (fmtOf q) ∧ |y.val (fmtOf q) - realOp a A' B'| ≤ chain (fmtOf q) (2 ^ (-(t : ℤ) - 1)) * |realOp a A' B'|)) := by
  have hmw : 1 ≤ (fmtOf q).mw := by cases q <;> decide
  have hop : ∀ l : List Bits, (∀ x ∈ l, x.WF (fmtOf q)) → (Vprec.Ops.apply2 ((vprecHW (fmtOf q)).op2 (vprecOp a)) l).WF (fmtOf q) := by
    intro l hl
    match l, hl with
    | [], _ => exact Vprec.zero_wf _ _
    | [a], _ => exact Vprec.zero_wf _ _
    | [c, d], hl =>
      have := operatorC_wf (fmtOf q) hmw c d (hl c (by simp)) (hl d (by simp)) a
      cases a <;> exact this
    | a :: b :: c :: l, _ => exact Vprec.zero_wf _ _
  have hround : ∀ x inp, x.WF (fmtOf q) → ∃ y, Vprec.roundBinary sem (fmtOf q) w x inp cfg.ctx ((r : Int).toNat) t = .ok y ∧ y.WF (fmtOf q) :=
    fun x inp hx => Vprec.C03_result_defined sem (fmtOf q) w hIs x inp cfg.ctx r t hrel hr hr2 hp1 hpz hp hx
  obtain ⟨used, hu, y, hy, wy, y1, y2⟩ := vprec_any sem (vprecHW b32) (vprecHW b64) cfg k _ hv hround
    (by intro x hx; simp only [List.mem_cons, List.not_mem_nil, or_false] at hx; rcases hx with rfl | rfl <;> assumption) hop
  refine ⟨y, hy, wy, fun fA fB iA iB => ?_⟩
  obtain ⟨A1, B1, rfl, hA, hB⟩ : ∃ A1 B1, used = [A1, B1] ∧
      ((Vprec.Ops.RoundsOperands cfg.mode → Vprec.roundBinary sem (fmtOf q) w A true cfg.ctx r t = .ok A1) ∧
        (¬ Vprec.Ops.RoundsOperands cfg.mode → A1 = A)) ∧
      ((Vprec.Ops.RoundsOperands cfg.mode → Vprec.roundBinary sem (fmtOf q) w B true cfg.ctx r t = .ok B1) ∧
        (¬ Vprec.Ops.RoundsOperands cfg.mode → B1 = B)) := by
    cases hu with
    | cons a1 hu => cases hu with
      | cons a2 hu => cases hu; exact ⟨_, _, rfl, a1, a2⟩
  have he : Vprec.Ops.apply2 ((vprecHW (fmtOf q)).op2 (vprecOp a)) [A1, B1] = operatorC (fmtOf q) A1 B1 a := by cases a <;> rfl
  simp only [he] at y1 y2
  have d0 : (0 : ℚ) < 2 ^ (-(t : ℤ) - 1) := zpow_pos (by norm_num) _
  obtain ⟨fA1, eA⟩ := vprec_operand sem cfg hrel q w hIs r t hr hr2 hp1 hpz hp A A1 wA fA iA hA
  obtain ⟨fB1, eB⟩ := vprec_operand sem cfg hrel q w hIs r t hr hr2 hp1 hpz hp B B1 wB fB iB hB
  obtain ⟨hem1, hem2, -⟩ := Vprec.range_facts (fmtOf q) w hIs r t hr hr2 hpz
  refine steps_err q _ _ d0.le (formatRange r) ?_ a A B A1 B1 y fA1 fB1 eA eB ?_
  · show -((fmtOf q).bias : ℤ) ≤ Vprec.Spec.emin r ∧ Vprec.Spec.emax r ≤ (fmtOf q).bias + 1
    unfold Vprec.Spec.emin
    omega
  · intro ww wf hS
    by_cases hm : Vprec.Ops.RoundsResult cfg.mode
    · exact vprec_near sem (fmtOf q) w hIs _ y false cfg.ctx r t hrel hr hr2 hp1 hpz hp ww wf (y1 hm) hS
    · rw [y2 hm]
      exact ⟨wf, by rw [sub_self, abs_zero]; exact mul_nonneg d0.le (abs_nonneg _)⟩

/-- A fused multiply-add. -/
theorem vprec_fma (sem : ShiftSem) (cfg : Vprec.Config.Cfg) (hrel : cfg.absErr = false) (q : Wrapper.Prec) (w : Nat)
    (hIs : Vprec.IsC (fmtOf q) w) (r t : Nat) (hr : 2 ≤ r) (hr2 : r ≤ (fmtOf q).ew) (hp1 : 1 ≤ t) (hpz : t ≤ (fmtOf q).mw)
    (hp : t < (fmtOf q).mw ∨ sem = .wrap) (k : Vprec.Ops.Call) (A B C : Bits) (wA : A.WF (fmtOf q)) (wB : B.WF (fmtOf q)) (wC : C.WF (fmtOf q))
    (hv : Vprec.Ops.view (vprecHW b32) (vprecHW b64) cfg k = some ⟨fmtOf q, w, r, t, [A, B, C], Vprec.Ops.apply3 (vprecHW (fmtOf q)).fma⟩) :
    ∃ y, Vprec.Ops.exec sem (vprecHW b32) (vprecHW b64) cfg k = .ok y ∧ y.WF (fmtOf q) ∧
      (A.Fin (fmtOf q) → B.Fin (fmtOf q) → C.Fin (fmtOf q) → (formatRange r).Ok (A.val (fmtOf q)) → (formatRange r).Ok (B.val (fmtOf q)) →
        (formatRange r).Ok (C.val (fmtOf q)) →
        ∃ A' B' C' : ℚ, |A' - A.val (fmtOf q)| ≤ (if cfg.mode = .ib ∨ cfg.mode = .full then 1 else 0 : ℕ) * chain (fmtOf q) (2 ^ (-(t : ℤ) - 1)) * |A.val (fmtOf q)| ∧
          |B' - B.val (fmtOf q)| ≤ (if cfg.mode = .ib ∨ cfg.mode = .full then 1 else 0 : ℕ) * chain (fmtOf q) (2 ^ (-(t : ℤ) - 1)) * |B.val (fmtOf q)| ∧
          |C' - C.val (fmtOf q)| ≤ (if cfg.mode = .ib ∨ cfg.mode = .full then 1 else 0 : ℕ) * chain (fmtOf q) (2 ^ (-(t : ℤ) - 1)) * |C.val (fmtOf q)| ∧
          ((formatRange r).inner.Ok (A' * B' + C') →
            y.Fin (fmtOf q) ∧ |y.val (fmtOf q) - (A' * B' + C')| ≤ chain (fmtOf q) (2 ^ (-(t : ℤ) - 1)) * |A' * B' + C'|)) := by
  have hmw : 1 ≤ (fmtOf q).mw := by cases q <;> decide
  have hop : ∀ l : List Bits, (∀ x ∈ l, x.WF (fmtOf q)) → (Vprec.Ops.apply3 (vprecHW (fmtOf q)).fma l).WF (fmtOf q) := by
    intro l hl
    match l, hl with
    | [], _ => exact Vprec.zero_wf _ _
    | [a], _ => exact Vprec.zero_wf _ _
    | [a, b], hl => exact Vprec.zero_wf _ _
    | [a, b, c], hl => exact ffma_wf (fmtOf q) hmw a b c (hl c (by simp))
    | a :: b :: c :: d :: l, _ => exact Vprec.zero_wf _ _
  have hround : ∀ x inp, x.WF (fmtOf q) → ∃ y, Vprec.roundBinary sem (fmtOf q) w x inp cfg.ctx ((r : Int).toNat) t = .ok y ∧ y.WF (fmtOf q) :=
    fun x inp hx => Vprec.C03_result_defined sem (fmtOf q) w hIs x inp cfg.ctx r t hrel hr hr2 hp1 hpz hp hx
  obtain ⟨used, hu, y, hy, wy, y1, y2⟩ := vprec_any sem (vprecHW b32) (vprecHW b64) cfg k _ hv hround
    (by intro x hx; simp only [List.mem_cons, List.not_mem_nil, or_false] at hx; rcases hx with rfl | rfl | rfl <;> assumption) hop
  refine ⟨y, hy, wy, fun fA fB fC iA iB iC => ?_⟩
  obtain ⟨A1, B1, C1, rfl, hA, hB, hC⟩ : ∃ A1 B1 C1, used = [A1, B1, C1] ∧
      ((Vprec.Ops.RoundsOperands cfg.mode → Vprec.roundBinary sem (fmtOf q) w A true cfg.ctx r t = .ok A1) ∧
        (¬ Vprec.Ops.RoundsOperands cfg.mode → A1 = A)) ∧
      ((Vprec.Ops.RoundsOperands cfg.mode → Vprec.roundBinary sem (fmtOf q) w B true cfg.ctx r t = .ok B1) ∧
        (¬ Vprec.Ops.RoundsOperands cfg.mode → B1 = B)) ∧
      ((Vprec.Ops.RoundsOperands cfg.mode → Vprec.roundBinary sem (fmtOf q) w C true cfg.ctx r t = .ok C1) ∧
        (¬ Vprec.Ops.RoundsOperands cfg.mode → C1 = C)) := by
    cases hu with
    | cons a1 hu => cases hu with
      | cons a2 hu => cases hu with
        | cons a3 hu => cases hu; exact ⟨_, _, _, rfl, a1, a2, a3⟩
  have he : Vprec.Ops.apply3 (vprecHW (fmtOf q)).fma [A1, B1, C1] = ffma (fmtOf q) A1 B1 C1 := rfl
  simp only [he] at y1 y2
  have d0 : (0 : ℚ) < 2 ^ (-(t : ℤ) - 1) := zpow_pos (by norm_num) _
  obtain ⟨fA1, eA⟩ := vprec_operand sem cfg hrel q w hIs r t hr hr2 hp1 hpz hp A A1 wA fA iA hA
  obtain ⟨fB1, eB⟩ := vprec_operand sem cfg hrel q w hIs r t hr hr2 hp1 hpz hp B B1 wB fB iB hB
  obtain ⟨fC1, eC⟩ := vprec_operand sem cfg hrel q w hIs r t hr hr2 hp1 hpz hp C C1 wC fC iC hC
  obtain ⟨hem1, hem2, -⟩ := Vprec.range_facts (fmtOf q) w hIs r t hr hr2 hpz
  refine fma_err q _ _ d0.le (formatRange r) ?_ A B C A1 B1 C1 y fA1 fB1 fC1 eA eB eC ?_
  · show -((fmtOf q).bias : ℤ) ≤ Vprec.Spec.emin r ∧ Vprec.Spec.emax r ≤ (fmtOf q).bias + 1
    unfold Vprec.Spec.emin
    omega
  · intro ww wf hS
    by_cases hm : Vprec.Ops.RoundsResult cfg.mode
    · exact vprec_near sem (fmtOf q) w hIs _ y false cfg.ctx r t hrel hr hr2 hp1 hpz hp ww wf (y1 hm) hS
    · rw [y2 hm]
      exact ⟨wf, by rw [sub_self, abs_zero]; exact mul_nonneg d0.le (abs_nonneg _)⟩

/-- **C98** VPREC with `r` bits of exponent and precision `t`, in any mode and with any flushing: `2^-(t+1)`, on operands too in ib
and full mode, for operands between `2^emin` and `2^emax` and results a binade inside. -/
theorem C98_vprec_partial (p : Wrapper.Prec) (sem : ShiftSem) (cfg : Vprec.Config.Cfg) (hc : Vprec.Config.InLimits cfg)
    (hrel : cfg.absErr = false) (hp : sem = .wrap ∨ (cfg.prec32 < 23 ∧ cfg.prec64 < 52)) (fl : Flags) (hfc : fl.fcmp = false)
    (hca : fl.cast = false) (bs : List (Wrapper.Backend σ κ)) (ctx : Nat → κ) :
    Meets fl (SignedContract p (if cfg.mode = .ib ∨ cfg.mode = .full then 1 else 0) (chain (fmtOf p) (2 ^ (-((vprecSize cfg p).2 : ℤ) - 1)))
      (formatRange (vprecSize cfg p).1) (formatRange (vprecSize cfg p).1).inner) (bs ++ [vprecBackend sem cfg]) ctx := by
  have e1 : b32.ew = 8 := rfl
  have e2 : b64.ew = 11 := rfl
  have e3 : b32.mw = 23 := rfl
  have e4 : b64.mw = 52 := rfl
  obtain ⟨h1, h2, h3, h4⟩ := hc
  obtain ⟨r32, hr32⟩ : ∃ r : ℕ, cfg.range32 = r := ⟨cfg.range32.toNat, by omega⟩
  obtain ⟨r64, hr64⟩ : ∃ r : ℕ, cfg.range64 = r := ⟨cfg.range64.toNat, by omega⟩
  obtain ⟨t32, ht32⟩ : ∃ r : ℕ, cfg.prec32 = r := ⟨cfg.prec32.toNat, by omega⟩
  obtain ⟨t64, ht64⟩ : ∃ r : ℕ, cfg.prec64 = r := ⟨cfg.prec64.toNat, by omega⟩
  refine meets_last fl _ _ (fun o ho => ?_) bs ctx
  rcases o with ⟨a, q⟩ | q | q | _
  · refine ⟨_, rfl, fun x _ s => ?_⟩
    cases q
    · obtain ⟨y, k1, k2, k3⟩ := vprec_call sem cfg hrel .float 32 (Or.inl ⟨rfl, rfl⟩) r32 t32 (by omega) (show r32 ≤ b32.ew by omega)
        (by omega) (show t32 ≤ b32.mw by omega)
        (by rcases hp with hp | hp; exacts [Or.inr hp, Or.inl (show t32 < b32.mw by omega)])
        (.bin32 (vprecOp a) (operand b32 x 0) (operand b32 x 1)) a (operand b32 x 0) (operand b32 x 1) (operand_wf _ _ _) (operand_wf _ _ _)
        (by rw [← hr32, ← ht32]; rfl)
      refine ⟨y, s, k2, ?_, fun c => ?_⟩
      · rintro rfl
        simp only [vprecSize, hr32, ht32, Int.toNat_natCast]
        exact k3
      · simp only [vprecCall, k1, Outcome.bind_ok, store]
    · obtain ⟨y, k1, k2, k3⟩ := vprec_call sem cfg hrel .double 64 (Or.inr ⟨rfl, rfl⟩) r64 t64 (by omega) (show r64 ≤ b64.ew by omega)
        (by omega) (show t64 ≤ b64.mw by omega)
        (by rcases hp with hp | hp; exacts [Or.inr hp, Or.inl (show t64 < b64.mw by omega)])
        (.bin64 (vprecOp a) (operand b64 x 0) (operand b64 x 1)) a (operand b64 x 0) (operand b64 x 1) (operand_wf _ _ _) (operand_wf _ _ _)
        (by rw [← hr64, ← ht64]; rfl)
      refine ⟨y, s, k2, ?_, fun c => ?_⟩
      · rintro rfl
        simp only [vprecSize, hr64, ht64, Int.toNat_natCast]
        exact k3
      · simp only [vprecCall, k1, Outcome.bind_ok, store]
  · simp [Wrapper.emitted, hfc] at ho
  · refine ⟨_, rfl, fun x _ s => ?_⟩
    cases q
    · obtain ⟨y, k1, k2, k3⟩ := vprec_fma sem cfg hrel .float 32 (Or.inl ⟨rfl, rfl⟩) r32 t32 (by omega) (show r32 ≤ b32.ew by omega)
        (by omega) (show t32 ≤ b32.mw by omega)
        (by rcases hp with hp | hp; exacts [Or.inr hp, Or.inl (show t32 < b32.mw by omega)])
        (.fma32 (operand b32 x 0) (operand b32 x 1) (operand b32 x 2)) (operand b32 x 0) (operand b32 x 1) (operand b32 x 2)
        (operand_wf _ _ _) (operand_wf _ _ _) (operand_wf _ _ _) (by rw [← hr32, ← ht32]; rfl)
      refine ⟨y, s, k2, ?_, fun c => ?_⟩
      · rintro rfl
        simp only [vprecSize, hr32, ht32, Int.toNat_natCast]
        exact k3
      · simp only [vprecCall, k1, Outcome.bind_ok, store]
    · obtain ⟨y, k1, k2, k3⟩ := vprec_fma sem cfg hrel .double 64 (Or.inr ⟨rfl, rfl⟩) r64 t64 (by omega) (show r64 ≤ b64.ew by omega)
        (by omega) (show t64 ≤ b64.mw by omega)
        (by rcases hp with hp | hp; exacts [Or.inr hp, Or.inl (show t64 < b64.mw by omega)])
        (.fma64 (operand b64 x 0) (operand b64 x 1) (operand b64 x 2)) (operand b64 x 0) (operand b64 x 1) (operand b64 x 2)
        (operand_wf _ _ _) (operand_wf _ _ _) (operand_wf _ _ _) (by rw [← hr64, ← ht64]; rfl)
      refine ⟨y, s, k2, ?_, fun c => ?_⟩
      · rintro rfl
        simp only [vprecSize, hr64, ht64, Int.toNat_natCast]
        exact k3
      · simp only [vprecCall, k1, Outcome.bind_ok, store]
  · simp [Wrapper.emitted, hca] at ho

end Verif.Pass
