import Verif.Pass.ExprProps
import Mathlib.Algebra.BigOperators.Group.Finset.Basic
import Mathlib.Algebra.Order.BigOperators.Group.Finset

/-!
# Property C97, continued: the MCA backends, sums of any length, and why subtractions are excluded
-/

namespace Verif.Pass
open Verif Verif.Fp

variable {P σ κ : Type}

/-! ## With the MCA backends -/

/-- Are operands perturbed? -/
def inbound (mode : Mca.Mode) : Nat := if mode = .pb ∨ mode = .mca then 1 else 0

theorem opError_mono (T : Mca.Ty) {a b : ℚ} (h : a ≤ b) : opError T a ≤ opError T b := by
  unfold opError
  have p1 : (0 : ℚ) < 2 ^ (-(T.wide.mw : ℤ) - 1) := zpow_pos (by norm_num) _
  have p2 : (0 : ℚ) < 2 ^ (-(T.fmt.mw : ℤ) - 1) := zpow_pos (by norm_num) _
  have h1 := mul_le_mul_of_nonneg_left (add_le_add_right h 1) (show (0 : ℚ) ≤ 1 + 2 ^ (-(T.wide.mw : ℤ) - 1) by linarith)
  have h2 := mul_le_mul_of_nonneg_right h1 (show (0 : ℚ) ≤ 1 + 2 ^ (-(T.fmt.mw : ℤ) - 1) by linarith)
  linarith

theorem le_opError (T : Mca.Ty) {a : ℚ} (h : 0 ≤ a) : a ≤ opError T a := by
  unfold opError
  have p1 : (0 : ℚ) < 2 ^ (-(T.wide.mw : ℤ) - 1) := zpow_pos (by norm_num) _
  have p2 : (0 : ℚ) < 2 ^ (-(T.fmt.mw : ℤ) - 1) := zpow_pos (by norm_num) _
  generalize (2 : ℚ) ^ (-(T.wide.mw : ℤ) - 1) = u at *
  generalize (2 : ℚ) ^ (-(T.fmt.mw : ℤ) - 1) = v at *
  have h1 : 1 + a ≤ (1 + u) * (1 + a) := by nlinarith
  have h2 : (1 + u) * (1 + a) ≤ (1 + u) * (1 + a) * (1 + v) := le_mul_of_one_le_right (by positivity) (by linarith)
  linarith

/-- The positive finite numbers. -/
def finite (F : Fmt) : Range := ⟨F.uexp, F.bias + 1⟩

/-- The results C96 is about. -/
def ordinary (F : Fmt) : Range := ⟨3 - F.bias, F.bias - 2⟩

theorem finite_has (p : Wrapper.Prec) (x : Bits) (hw : x.WF (fmtOf p)) (hf : x.Fin (fmtOf p)) (h0 : 0 < x.val (fmtOf p)) :
    (finite (fmtOf p)).Has (x.val (fmtOf p)) := by
  have hz : ¬ x.isZero := by
    intro hc
    rw [(Vprec.val_eq_zero (fmtOf p) x).2 ((mag_eq_zero _ _).2 hc)] at h0
    exact lt_irrefl _ h0
  have h1 := val_ge (fmtOf p) x hz
  have h2 := fin_val_lt (fmtOf p) (by cases p <;> decide) x hw hf
  rw [abs_of_pos h0] at h1 h2
  exact ⟨h1, h2⟩

theorem rel_err (mode : Mca.Mode) (δ : Mca.Ty → ℚ) (p : Wrapper.Prec) (h0 : 0 ≤ δ (mcaTy p)) (h2 : δ (mcaTy p) ≤ 1 / 2)
    (o : Wrapper.OpId) (x : List (BitVec 64)) (y : Bits) (h : RelContract mode δ o x y) :
    ErrContract p (inbound mode) (opError (mcaTy p) (δ (mcaTy p))) (finite (fmtOf p)) (ordinary (fmtOf p)) o x y := by
  rcases o with ⟨a, q⟩ | q | q | _
  · rintro rfl - fA fB iA iB
    rw [fmtOf_eq] at fA fB iA iB ⊢
    have pA := Range.has_pos iA
    have pB := Range.has_pos iB
    obtain ⟨A', B', eA, eB, c⟩ := h fA fB
    rw [abs_of_pos pA] at eA
    rw [abs_of_pos pB] at eB
    have e1 := le_opError (mcaTy q) h0
    have hin : (if mode = .pb ∨ mode = .mca then δ (mcaTy q) else 0) ≤ inbound mode * opError (mcaTy q) (δ (mcaTy q)) := by
      unfold inbound
      split_ifs
      · simpa using e1
      · simp
    have hB' : B' ≠ 0 := by
      rintro rfl
      rw [zero_sub, abs_neg, abs_of_pos pB] at eB
      have : (if mode = .pb ∨ mode = .mca then δ (mcaTy q) else 0) ≤ 1 / 2 := by split_ifs <;> linarith
      have := mul_le_mul_of_nonneg_right this pB.le
      linarith
    refine ⟨A', B', le_trans eA (mul_le_mul_of_nonneg_right hin pA.le), le_trans eB (mul_le_mul_of_nonneg_right hin pB.le), fun hR => ?_⟩
    have pr := Range.has_pos hR
    obtain ⟨-, c⟩ := c (fun _ => hB')
    rw [abs_of_pos pr] at c
    obtain ⟨fy, ey⟩ := c hR.1 hR.2
    refine ⟨fy, le_trans ey (mul_le_mul_of_nonneg_right ?_ pr.le)⟩
    split_ifs
    · exact le_refl _
    · exact opError_mono _ h0
  all_goals trivial

/-- **C97** for the relative errors of C96. -/
theorem C97_relative_partial (p : Wrapper.Prec) (mode : Mca.Mode) (δ : Mca.Ty → ℚ) (h0 : 0 ≤ δ (mcaTy p)) (h2 : δ (mcaTy p) ≤ 1 / 2)
    (fl : Flags) (hfc : fl.fcmp = false) (bs : List (Wrapper.Backend σ κ)) (ctx : Nat → κ) (hm : Meets fl (RelContract mode δ) bs ctx)
    (op1 : Wrapper.OpId → List (BitVec 64) → BitVec 64) (rest : Instr → Nat → List Nat → Nat)
    (k : Nat) (l : List Node) (out : Nat) (hv : Valid l k) (ho : out < k + l.length) (order : List Nat)
    (hp : order.Perm (workList fl (straight (σ := σ) p k l out)))
    (X : Nat → Bits) (hX : ∀ i < k, (X i).WF (fmtOf p) ∧ (X i).Fin (fmtOf p) ∧ 0 < (X i).val (fmtOf p))
    (L M : Nat) (hLM : L + M + 3 ≤ (fmtOf p).bias)
    (hr : ∀ i, k ≤ i → i < k + l.length →
      (2 : ℚ) ^ (-(L : ℤ)) ≤ reals (fun i => (X i).val (fmtOf p)) l k i ∧ reals (fun i => (X i).val (fmtOf p)) l k i ≤ 2 ^ (L : ℤ) ∧
      factor (opError (mcaTy p) (δ (mcaTy p))) ^ costs (inbound mode) (fun _ => 0) l k i ≤ 2 ^ M) (m : Nat × σ) :
    ∃ F', replaceAll (pair p) fl (straight p k l out) order = .ok F' ∧ ∃ y : Bits, y.WF (fmtOf p) ∧ y.Fin (fmtOf p) ∧
      (run (exec (linked op1 rest bs ctx)) F' 1 (enter k (fun i => word (fmtOf p) (X i)) m, some 0)).1.mem.1 = word (fmtOf p) y ∧
      Near (factor (opError (mcaTy p) (δ (mcaTy p)))) (costs (inbound mode) (fun _ => 0) l k out) (y.val (fmtOf p))
        (reals (fun i => (X i).val (fmtOf p)) l k out) := by
  have e1 := le_opError (mcaTy p) h0
  have e2 := opError_le (mcaTy p) _ h2
  refine C97_straight_partial p (inbound mode) (by unfold inbound; split_ifs <;> omega) _ (by linarith) (by linarith) (finite (fmtOf p))
    (ordinary (fmtOf p)) ?_ fl hfc bs ctx (hm.mono (rel_err mode δ p h0 h2)) op1 rest k l out hv ho order hp X
    (fun i hi => ⟨(hX i hi).1, (hX i hi).2.1, finite_has p _ (hX i hi).1 (hX i hi).2.1 (hX i hi).2.2⟩) L M ?_ ?_ hr m
  · unfold finite ordinary Fmt.uexp
    constructor
    · show 1 - ((fmtOf p).bias : ℤ) - (fmtOf p).mw ≤ 3 - (fmtOf p).bias
      omega
    · show ((fmtOf p).bias : ℤ) - 2 ≤ (fmtOf p).bias + 1
      omega
  · show 3 - ((fmtOf p).bias : ℤ) ≤ _
    omega
  · show _ < ((fmtOf p).bias : ℤ) - 2
    omega

/-- **C97** with the integer MCA backend loaded last, in any mode, at precision `t`. -/
theorem C97_int_partial (p : Wrapper.Prec) (g : Mca.Gen σ) (cfg : Mca.Ctx) (hd : cfg.daz = false) (hf : cfg.ftz = false) (t : Mca.Ty → Nat)
    (hp : ∀ T, cfg.prec T = t T) (ht : ∀ T, 2 ≤ t T ∧ t T ≤ T.wide.mw) (fl : Flags) (hfc : fl.fcmp = false)
    (bs : List (Wrapper.Backend σ κ)) (ctx : Nat → κ)
    (op1 : Wrapper.OpId → List (BitVec 64) → BitVec 64) (rest : Instr → Nat → List Nat → Nat)
    (k : Nat) (l : List Node) (out : Nat) (hv : Valid l k) (ho : out < k + l.length) (order : List Nat)
    (hperm : order.Perm (workList fl (straight (σ := σ) p k l out)))
    (X : Nat → Bits) (hX : ∀ i < k, (X i).WF (fmtOf p) ∧ (X i).Fin (fmtOf p) ∧ 0 < (X i).val (fmtOf p))
    (L M : Nat) (hLM : L + M + 3 ≤ (fmtOf p).bias)
    (hr : ∀ i, k ≤ i → i < k + l.length →
      (2 : ℚ) ^ (-(L : ℤ)) ≤ reals (fun i => (X i).val (fmtOf p)) l k i ∧ reals (fun i => (X i).val (fmtOf p)) l k i ≤ 2 ^ (L : ℤ) ∧
      factor (opError (mcaTy p) (2 ^ (1 - (t (mcaTy p) : ℤ)))) ^ costs (inbound cfg.mode) (fun _ => 0) l k i ≤ 2 ^ M) (m : Nat × σ) :
    ∃ F', replaceAll (pair p) fl (straight p k l out) order = .ok F' ∧ ∃ y : Bits, y.WF (fmtOf p) ∧ y.Fin (fmtOf p) ∧
      (run (exec (linked op1 rest (bs ++ [mcaIntBackend .wrap g cfg]) ctx)) F' 1
        (enter k (fun i => word (fmtOf p) (X i)) m, some 0)).1.mem.1 = word (fmtOf p) y ∧
      Near (factor (opError (mcaTy p) (2 ^ (1 - (t (mcaTy p) : ℤ))))) (costs (inbound cfg.mode) (fun _ => 0) l k out) (y.val (fmtOf p))
        (reals (fun i => (X i).val (fmtOf p)) l k out) :=
  C97_relative_partial p cfg.mode (fun T => 2 ^ (1 - (t T : ℤ))) (zpow_pos (by norm_num) _).le (pow_half _ (ht _).1) fl hfc _ ctx
    (C96_int_relative_partial g cfg hd hf t hp ht fl hfc bs ctx) op1 rest k l out hv ho order hperm X hX L M hLM hr m

/-- **C97** with the quad backend and a generator that does not draw one half. -/
theorem C97_quad_partial (p : Wrapper.Prec) (g : Mca.Gen σ) (hg : ∀ s, Mca.drawn (g.next s).1 ≠ 2 ^ 51) (cfg : Mca.Ctx)
    (hre : cfg.relErr = true) (hab : cfg.absErr = false) (hd : cfg.daz = false) (hf : cfg.ftz = false) (t : Mca.Ty → Nat)
    (hp : ∀ T, cfg.prec T = t T) (ht : ∀ T, 2 ≤ t T ∧ t T ≤ T.wide.mw + 1) (fl : Flags) (hfc : fl.fcmp = false)
    (bs : List (Wrapper.Backend σ κ)) (ctx : Nat → κ)
    (op1 : Wrapper.OpId → List (BitVec 64) → BitVec 64) (rest : Instr → Nat → List Nat → Nat)
    (k : Nat) (l : List Node) (out : Nat) (hv : Valid l k) (ho : out < k + l.length) (order : List Nat)
    (hperm : order.Perm (workList fl (straight (σ := σ) p k l out)))
    (X : Nat → Bits) (hX : ∀ i < k, (X i).WF (fmtOf p) ∧ (X i).Fin (fmtOf p) ∧ 0 < (X i).val (fmtOf p))
    (L M : Nat) (hLM : L + M + 3 ≤ (fmtOf p).bias)
    (hr : ∀ i, k ≤ i → i < k + l.length →
      (2 : ℚ) ^ (-(L : ℤ)) ≤ reals (fun i => (X i).val (fmtOf p)) l k i ∧ reals (fun i => (X i).val (fmtOf p)) l k i ≤ 2 ^ (L : ℤ) ∧
      factor (opError (mcaTy p) (2 ^ (-(t (mcaTy p) : ℤ)) + 2 ^ (-((mcaTy p).wide.mw : ℤ)))) ^ costs (inbound cfg.mode) (fun _ => 0) l k i ≤
        2 ^ M) (m : Nat × σ) :
    ∃ F', replaceAll (pair p) fl (straight p k l out) order = .ok F' ∧ ∃ y : Bits, y.WF (fmtOf p) ∧ y.Fin (fmtOf p) ∧
      (run (exec (linked op1 rest (bs ++ [mcaBackend (Mca.quadPerturb g) g cfg]) ctx)) F' 1
        (enter k (fun i => word (fmtOf p) (X i)) m, some 0)).1.mem.1 = word (fmtOf p) y ∧
      Near (factor (opError (mcaTy p) (2 ^ (-(t (mcaTy p) : ℤ)) + 2 ^ (-((mcaTy p).wide.mw : ℤ))))) (costs (inbound cfg.mode) (fun _ => 0) l k out)
        (y.val (fmtOf p)) (reals (fun i => (X i).val (fmtOf p)) l k out) := by
  have h1 : (2 : ℚ) ^ (-(t (mcaTy p) : ℤ)) + 2 ^ (-((mcaTy p).wide.mw : ℤ)) ≤ 1 / 2 := by
    have h1 : (2 : ℚ) ^ (-(t (mcaTy p) : ℤ)) ≤ 2 ^ (-2 : ℤ) := zpow_le_zpow_right₀ (by norm_num) (by have := (ht (mcaTy p)).1; omega)
    have h2 : (2 : ℚ) ^ (-((mcaTy p).wide.mw : ℤ)) ≤ 2 ^ (-2 : ℤ) := zpow_le_zpow_right₀ (by norm_num) (by cases p <;> decide)
    norm_num at h1 h2 ⊢
    linarith
  exact C97_relative_partial p cfg.mode (fun T => 2 ^ (-(t T : ℤ)) + 2 ^ (-(T.wide.mw : ℤ)))
    (add_pos (zpow_pos (by norm_num) _) (zpow_pos (by norm_num) _)).le h1 fl hfc _ ctx
    (C96_quad_relative_partial g hg cfg hre hab hd hf t hp ht fl hfc bs ctx) op1 rest k l out hv ho order hperm X hX L M hLM hr m

/-! ## Sums -/

/-- Adding the `n` values from name `j` on to the value named `a`, the next name being `nx`. -/
def sumNodes : Nat → Nat → Nat → Nat → List Node
  | _, _, 0, _ => []
  | a, j, n + 1, nx => ⟨.add, a, j⟩ :: sumNodes nx (j + 1) n (nx + 1)

theorem sumNodes_length (a j n nx : Nat) : (sumNodes a j n nx).length = n := by
  induction n generalizing a j nx with
  | zero => rfl
  | succ n ih => rw [sumNodes, List.length_cons, ih]

theorem sumNodes_valid (a j n nx : Nat) (ha : a < nx) (hj : j + n ≤ nx) : Valid (sumNodes a j n nx) nx := by
  induction n generalizing a j nx with
  | zero => trivial
  | succ n ih => exact ⟨ha, show j < nx by omega, by simp, ih nx (j + 1) (nx + 1) (by omega) (by omega)⟩

theorem sumNodes_reals (x : Nat → ℚ) (a j n nx : Nat) (ha : a < nx) (hj : j + n ≤ nx) (i : Nat) (hi : i < n) :
    reals x (sumNodes a j n nx) nx (nx + i) = x a + ∑ m ∈ Finset.range (i + 1), x (j + m) := by
  induction n generalizing x a j nx i with
  | zero => omega
  | succ n ih =>
    rw [sumNodes, reals]
    cases i with
    | zero =>
      rw [reals_old _ _ _ _ (by omega), Nat.add_zero, if_pos rfl]
      simp [realOp]
    | succ i =>
      rw [show nx + (i + 1) = nx + 1 + i by omega, ih _ nx (j + 1) (nx + 1) (by omega) (by omega) i (by omega)]
      rw [if_pos rfl, Finset.sum_range_succ' _ (i + 1)]
      simp only [realOp, Nat.add_zero]
      rw [add_comm (∑ k ∈ Finset.range (i + 1), x (j + (k + 1))) (x j), ← add_assoc]
      congr 1
      apply Finset.sum_congr rfl
      intro m hm
      rw [if_neg (by have := Finset.mem_range.1 hm; omega)]
      congr 1
      omega

theorem sumNodes_costs (inn : Nat) (c : Nat → Nat) (a j n nx : Nat) (ha : a < nx) (hj : j + n ≤ nx) (hc : ∀ m < n, c (j + m) = 0)
    (i : Nat) (hi : i < n) :
    costs inn c (sumNodes a j n nx) nx (nx + i) = c a + (i + 1) * (inn + 1) := by
  induction n generalizing c a j nx i with
  | zero => omega
  | succ n ih =>
    rw [sumNodes, costs]
    have h0 := hc 0 (by omega)
    rw [Nat.add_zero] at h0
    cases i with
    | zero =>
      rw [costs_old _ _ _ _ _ (by omega), Nat.add_zero, if_pos rfl]
      simp only [cost, h0]
      omega
    | succ i =>
      rw [show nx + (i + 1) = nx + 1 + i by omega, ih _ nx (j + 1) (nx + 1) (by omega) (by omega) _ i (by omega)]
      · rw [if_pos rfl]
        simp only [cost, h0]
        rw [Nat.max_zero, show i + 1 + 1 = 1 + (i + 1) by omega, Nat.add_mul 1 (i + 1)]
        omega
      · intro m hm
        rw [if_neg (by omega), show j + 1 + m = j + (m + 1) by omega]
        exact hc _ (by omega)

/-- **C97** on sums: the sum of `n + 1` positive numbers, from left to right: within `factor ^ n` of the sum (`factor ^ (2 n)` if
operands are changed), for every `n`. -/
theorem C97_sum_partial (p : Wrapper.Prec) (inn : Nat) (hi : inn ≤ 1) (η : ℚ) (h0 : 0 ≤ η) (hη : η < 1) (I R : Range)
    (hIR : I.low ≤ R.low ∧ R.high ≤ I.high) (fl : Flags) (hfc : fl.fcmp = false)
    (bs : List (Wrapper.Backend σ κ)) (ctx : Nat → κ) (hm : Meets fl (ErrContract p inn η I R) bs ctx)
    (op1 : Wrapper.OpId → List (BitVec 64) → BitVec 64) (rest : Instr → Nat → List Nat → Nat) (n : Nat) (hn : 1 ≤ n) (order : List Nat)
    (hperm : order.Perm (workList fl (straight (σ := σ) p (n + 1) (sumNodes 0 1 n (n + 1)) (2 * n))))
    (X : Nat → Bits) (hX : ∀ i < n + 1, (X i).WF (fmtOf p) ∧ (X i).Fin (fmtOf p) ∧ I.Has ((X i).val (fmtOf p)))
    (L M : Nat) (hlo : R.low ≤ -((L : ℤ) + M)) (hhi : (L : ℤ) + M < R.high)
    (h1 : (2 : ℚ) ^ (-(L : ℤ)) ≤ (X 0).val (fmtOf p)) (h2 : ∑ i ∈ Finset.range (n + 1), (X i).val (fmtOf p) ≤ 2 ^ (L : ℤ))
    (h3 : factor η ^ (n * (inn + 1)) ≤ 2 ^ M) (m : Nat × σ) :
    ∃ F', replaceAll (pair p) fl (straight p (n + 1) (sumNodes 0 1 n (n + 1)) (2 * n)) order = .ok F' ∧
      ∃ y : Bits, y.WF (fmtOf p) ∧ y.Fin (fmtOf p) ∧
      (run (exec (linked op1 rest bs ctx)) F' 1 (enter (n + 1) (fun i => word (fmtOf p) (X i)) m, some 0)).1.mem.1 = word (fmtOf p) y ∧
      Near (factor η) (n * (inn + 1)) (y.val (fmtOf p)) (∑ i ∈ Finset.range (n + 1), (X i).val (fmtOf p)) := by
  have hq := one_le_factor h0 hη
  have hpart : ∀ i < n, (X 0).val (fmtOf p) + ∑ m ∈ Finset.range (i + 1), (X (1 + m)).val (fmtOf p) =
      ∑ m ∈ Finset.range (i + 2), (X m).val (fmtOf p) := by
    intro i _
    rw [Finset.sum_range_succ' _ (i + 1), add_comm]
    congr 1
    apply Finset.sum_congr rfl
    intro m _
    rw [Nat.add_comm]
  have hle : ∀ i j, i ≤ j → j ≤ n + 1 → ∑ m ∈ Finset.range i, (X m).val (fmtOf p) ≤ ∑ m ∈ Finset.range j, (X m).val (fmtOf p) := by
    intro i j hij hj
    apply Finset.sum_le_sum_of_subset_of_nonneg
    · intro m hm
      rw [Finset.mem_range] at hm ⊢
      omega
    · intro m hm _
      rw [Finset.mem_range] at hm
      exact (Range.has_pos (hX m (by omega)).2.2).le
  have key := C97_straight_partial p inn hi η h0 hη I R hIR fl hfc bs ctx hm op1 rest (n + 1) (sumNodes 0 1 n (n + 1)) (2 * n)
    (sumNodes_valid 0 1 n (n + 1) (by omega) (by omega)) (by rw [sumNodes_length]; omega) order hperm X hX L M hlo hhi
    (by
      intro i hi1 hi2
      rw [sumNodes_length] at hi2
      obtain ⟨j, rfl⟩ := Nat.exists_eq_add_of_le hi1
      rw [sumNodes_reals _ 0 1 n (n + 1) (by omega) (by omega) j (by omega), hpart j (by omega),
        sumNodes_costs _ _ 0 1 n (n + 1) (by omega) (by omega) (fun _ _ => rfl) j (by omega)]
      refine ⟨?_, le_trans (hle _ _ (by omega) (by omega)) h2, ?_⟩
      · have := hle 1 (j + 2) (by omega) (by omega)
        rw [Finset.sum_range_one] at this
        exact le_trans h1 this
      · refine le_trans (pow_le_pow_right₀ hq ?_) h3
        have := Nat.mul_le_mul_right (inn + 1) (show j + 1 ≤ n by omega)
        omega) m
  obtain ⟨F', e, y, y1, y2, y3, y4⟩ := key
  refine ⟨F', e, y, y1, y2, y3, ?_⟩
  obtain ⟨j, rfl⟩ := Nat.exists_eq_add_of_le hn
  rw [show 2 * (1 + j) = 1 + j + 1 + j by omega, sumNodes_reals _ 0 1 (1 + j) (1 + j + 1) (by omega) (by omega) j (by omega),
    hpart j (by omega), sumNodes_costs _ _ 0 1 (1 + j) (1 + j + 1) (by omega) (by omega) (fun _ _ => rfl) j (by omega)] at y4
  rw [show 1 + j + 1 = j + 2 by omega, show 1 + j = j + 1 by omega]
  simpa using y4

/-- The doubles 1, 2 and 3. -/
def oneTwoThree (i : Nat) : Bits := [⟨false, 1023, 0⟩, ⟨false, 1024, 0⟩, ⟨false, 1024, 2 ^ 51⟩].getD i ⟨false, 0, 0⟩

/-- `1 + 2 + 3` in rr mode at precision 24: within `2^-19` of 6. -/
example (g : Mca.Gen σ) (bs : List (Wrapper.Backend σ κ)) (ctx : Nat → κ) (rest : Instr → Nat → List Nat → Nat) (m : Nat × σ) :
    ∃ F', replaceAll (pair .double) ⟨false, false, false⟩ (straight .double 3 (sumNodes 0 1 2 3) 4) [4, 3] = .ok F' ∧ ∃ y : Bits, y.Fin b64 ∧
      (run (exec (linked ieee rest (bs ++ [mcaIntBackend .wrap g { Mca.init with mode := .rr, prec64 := 24 }]) ctx)) F' 1
        (enter 3 (fun i => word b64 (oneTwoThree i)) m, some 0)).1.mem.1 =
          word b64 y ∧
      |y.val b64 - 6| ≤ 2 ^ (-19 : ℤ) := by
  have v1 : (⟨false, 1023, 0⟩ : Bits).val b64 = 1 := by norm_num [Bits.val, Bits.sig, Bits.lsb, sgn, b64, Fmt.bias]
  have v2 : (⟨false, 1024, 0⟩ : Bits).val b64 = 2 := by norm_num [Bits.val, Bits.sig, Bits.lsb, sgn, b64, Fmt.bias]
  have v3 : (⟨false, 1024, 2 ^ 51⟩ : Bits).val b64 = 3 := by norm_num [Bits.val, Bits.sig, Bits.lsb, sgn, b64, Fmt.bias]
  have hq : factor (opError .f64 (2 ^ (1 - ((24 : ℕ) : ℤ)))) ^ (2 * (inbound .rr + 1)) ≤ 1 + 2 ^ (-22 : ℤ) + 2 ^ (-40 : ℤ) := by
    rw [show inbound .rr = 0 from if_neg (by simp)]
    norm_num [factor, opError, Mca.Ty.wide, Mca.Ty.fmt, b64, b128]
  have hs : ∑ i ∈ Finset.range 3, (oneTwoThree i).val b64 = 6 := by
    rw [Finset.sum_range_succ, Finset.sum_range_succ, Finset.sum_range_one]
    show (⟨false, 1023, 0⟩ : Bits).val b64 + (⟨false, 1024, 0⟩ : Bits).val b64 + (⟨false, 1024, 2 ^ 51⟩ : Bits).val b64 = 6
    rw [v1, v2, v3]; norm_num
  have hmeet : Meets ⟨false, false, false⟩ (ErrContract .double (inbound .rr) (opError .f64 (2 ^ (1 - ((24 : ℕ) : ℤ)))) (finite b64) (ordinary b64))
      (bs ++ [mcaIntBackend .wrap g { Mca.init with mode := .rr, prec64 := 24 }]) ctx :=
    (C96_int_relative_partial g { Mca.init with mode := .rr, prec64 := 24 } rfl rfl (fun _ => 24)
      (fun T => by cases T <;> rfl) (fun T => by cases T <;> decide) ⟨false, false, false⟩ rfl bs ctx).mono
      (rel_err .rr _ .double (zpow_pos (by norm_num) _).le (pow_half 24 (by norm_num)))
  have hfin : ∀ x : Bits, x.WF b64 → x.Fin b64 → 0 < x.val b64 → x.WF b64 ∧ x.Fin b64 ∧ (finite b64).Has (x.val b64) :=
    fun x h1 h2 h3 => ⟨h1, h2, finite_has .double x h1 h2 h3⟩
  obtain ⟨F', e, y, -, y2, y3, y4⟩ := C97_sum_partial .double (inbound .rr) (by rw [show inbound .rr = 0 from if_neg (by simp)]; omega)
    (opError .f64 (2 ^ (1 - ((24 : ℕ) : ℤ)))) (by norm_num [opError, Mca.Ty.wide, Mca.Ty.fmt, b64, b128])
    (by norm_num [opError, Mca.Ty.wide, Mca.Ty.fmt, b64, b128]) (finite b64) (ordinary b64) (by decide) ⟨false, false, false⟩ rfl _ ctx hmeet
    ieee rest 2 (by norm_num) [4, 3] (List.Perm.swap 3 4 [])
    oneTwoThree
    (by
      intro i hi
      match i, hi with
      | 0, _ => exact hfin ⟨false, 1023, 0⟩ (by decide) (by decide) (by rw [v1]; norm_num)
      | 1, _ => exact hfin ⟨false, 1024, 0⟩ (by decide) (by decide) (by rw [v2]; norm_num)
      | 2, _ => exact hfin ⟨false, 1024, 2 ^ 51⟩ (by decide) (by decide) (by rw [v3]; norm_num))
    3 1 (by decide) (by decide) (by show _ ≤ (⟨false, 1023, 0⟩ : Bits).val b64; rw [v1]; norm_num) (le_trans (le_of_eq hs) (show (6 : ℚ) ≤ _ by norm_num))
    (le_trans hq (by norm_num)) m
  refine ⟨F', e, y, y2, y3, ?_⟩
  have y4 : Near _ _ (y.val b64) 6 := hs ▸ y4
  obtain ⟨a1, a2⟩ := y4
  have hy : 0 < y.val b64 := near_pos (le_of_lt (by norm_num [factor, opError, Mca.Ty.wide, Mca.Ty.fmt, b64, b128])) (by norm_num) ⟨a1, a2⟩
  have a3 := le_trans a1 (mul_le_mul_of_nonneg_right hq hy.le)
  have a4 := le_trans a2 (mul_le_mul_of_nonneg_right hq (show (0 : ℚ) ≤ 6 by norm_num))
  rw [abs_le]
  norm_num at a3 a4 ⊢
  constructor <;> linarith

/-! ## Subtractions -/

/-- The generator that draws the same word for ever. -/
def always (w : BitVec 64) : Mca.Gen Nat := ⟨fun s => (w, s + 1)⟩

/-- `(a + b) - c`, compiled with Verificarlo and run with integer MCA in rr mode at precision 24 on 1, `2^-30` and 1, the
generator drawing the largest word: what is returned. -/
def cancelled : Option Nat :=
  match replaceAll (pair .double) ⟨false, false, false⟩ (straight (σ := Nat) .double 3 [⟨.add, 0, 1⟩, ⟨.sub, 3, 2⟩] 4) [3, 4] with
  | .ok F' => some (run (exec (linked ieee (fun _ _ _ => 0) [mcaIntBackend (κ := Unit) .wrap (always 0x7fffffffffffffff)
      { Mca.init with mode := .rr, prec64 := 24 }] (fun _ => ()))) F' 1
      (enter 3 (fun i => [0x3ff0000000000000, 0x3e10000000000000, 0x3ff0000000000000].getD i 0) (0, 0), some 0)).1.mem.1
  | _ => none

theorem cancelled_eq : cancelled = some (word b64 ⟨false, 999, 2 ^ 46⟩) := by decide +kernel

/-- **C97** is false of subtractions: `(1 + 2^-30) - 1` is 65 times too large at precision 24, though all values are
ordinary and two errors of `2^-22` are counted. -/
theorem C97_subtraction_wrong : ∃ y : Bits, cancelled = some (word b64 y) ∧ y.val b64 = 65 * 2 ^ (-30 : ℤ) ∧
    reals (fun i => [1, 2 ^ (-30 : ℤ), 1].getD i 0) [⟨.add, 0, 1⟩, ⟨.sub, 3, 2⟩] 3 4 = 2 ^ (-30 : ℤ) ∧
    ¬ Near (factor (opError .f64 (2 ^ (1 - ((24 : ℕ) : ℤ))))) (costs (inbound .rr) (fun _ => 0) [⟨.add, 0, 1⟩, ⟨.sub, 3, 2⟩] 3 4) (y.val b64) (2 ^ (-30 : ℤ)) := by
  have hy : (⟨false, 999, 2 ^ 46⟩ : Bits).val b64 = 65 * 2 ^ (-30 : ℤ) := by
    norm_num [Bits.val, Bits.sig, Bits.lsb, sgn, b64, Fmt.bias]
  refine ⟨⟨false, 999, 2 ^ 46⟩, cancelled_eq, hy, ?_, ?_⟩
  · show (1 : ℚ) + 2 ^ (-30 : ℤ) - 1 = 2 ^ (-30 : ℤ)
    ring
  · rw [hy, show costs (inbound .rr) (fun _ => 0) [⟨.add, 0, 1⟩, ⟨.sub, 3, 2⟩] 3 4 = 2 by
      rw [show inbound .rr = 0 from if_neg (by simp)]; rfl]
    rintro ⟨-, h⟩
    norm_num [factor, opError, Mca.Ty.wide, Mca.Ty.fmt, b64, b128] at h

end Verif.Pass
