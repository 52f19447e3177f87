import Verif.Pass.ErrProps
import Verif.Ci.StatsProps

/-!
# Property C98, continued: the error of a program, the distance of two executions, and the significant bits of samples
-/

namespace Verif.Pass
open Verif Verif.Fp

variable {σ σ' κ κ' : Type}

/-- The function, compiled and run with some backends from a memory: the number it returns. -/
def returned (p : Wrapper.Prec) (op1 : Wrapper.OpId → List (BitVec 64) → BitVec 64) (rest : Instr → Nat → List Nat → Nat)
    (bs : List (Wrapper.Backend σ κ)) (ctx : Nat → κ) (F : Func (Nat × σ)) (k : Nat) (X : Nat → Bits) (m : Nat × σ) : ℚ :=
  (ofWord (fmtOf p) (run (exec (linked op1 rest bs ctx)) F 1 (enter k (fun i => word (fmtOf p) (X i)) m, some 0)).1.mem.1).val (fmtOf p)

/-- The conditions of C97: backends with errors of `η` at most, a function without subtractions on operands in their range, and
values and bounds in the range of their results. -/
structure Bounded (p : Wrapper.Prec) (inn : Nat) (η : ℚ) (I R : Range) (fl : Flags) (bs : List (Wrapper.Backend σ κ)) (ctx : Nat → κ) (k : Nat)
    (l : List Node) (out : Nat) (X : Nat → Bits) (L M : Nat) : Prop where
  inn_le : inn ≤ 1
  nonneg : 0 ≤ η
  lt_one : η < 1
  ranges : I.low ≤ R.low ∧ R.high ≤ I.high
  fcmp : fl.fcmp = false
  meets : Meets fl (ErrContract p inn η I R) bs ctx
  valid : Valid l k
  defined : out < k + l.length
  params : ∀ i < k, (X i).WF (fmtOf p) ∧ (X i).Fin (fmtOf p) ∧ I.Has ((X i).val (fmtOf p))
  low : R.low ≤ -((L : ℤ) + M)
  high : (L : ℤ) + M < R.high
  values : ∀ i, k ≤ i → i < k + l.length →
    (2 : ℚ) ^ (-(L : ℤ)) ≤ reals (fun i => (X i).val (fmtOf p)) l k i ∧ reals (fun i => (X i).val (fmtOf p)) l k i ≤ 2 ^ (L : ℤ) ∧
    factor η ^ costs inn (fun _ => 0) l k i ≤ 2 ^ M

/-- The bound on the relative error after `c` errors of `η`. -/
def gamma (c : Nat) (η : ℚ) : ℚ := c * η / (1 - c * η)

theorem gamma_nonneg (c : Nat) {η : ℚ} (h0 : 0 ≤ η) (h1 : c * η < 1) : 0 ≤ gamma c η :=
  div_nonneg (mul_nonneg (Nat.cast_nonneg _) h0) (by linarith)

theorem near_gamma {η : ℚ} (h0 : 0 ≤ η) (h1 : η < 1) (c : Nat) (hc : c * η < 1) {y r : ℚ} (hr : 0 < r) (h : Near (factor η) c y r) :
    |y - r| ≤ gamma c η * r := by
  have hp : 0 < 1 - η := by linarith
  have hq : 0 < 1 - c * η := by linarith
  have hb : 1 - c * η ≤ (1 - η) ^ c := by
    have := one_add_mul_le_pow (show (-2 : ℚ) ≤ -η by linarith) c
    rw [← sub_eq_add_neg] at this
    linarith
  have hpc : 0 < (1 - η) ^ c := pow_pos hp c
  have hcη : 0 ≤ c * η := mul_nonneg (Nat.cast_nonneg _) h0
  obtain ⟨a1, a2⟩ := h
  unfold factor at a1 a2
  rw [inv_pow, ← div_eq_inv_mul, le_div_iff₀ hpc] at a1 a2
  have b1 : (1 - c * η) * r ≤ y := by
    have := mul_le_mul_of_nonneg_left hb hr.le
    linarith
  have hy : 0 < y := lt_of_lt_of_le (mul_pos hq hr) b1
  have b2 : (1 - c * η) * y ≤ r := by
    have := mul_le_mul_of_nonneg_left hb hy.le
    linarith
  unfold gamma
  rw [div_mul_eq_mul_div, le_div_iff₀ hq, abs_sub_comm]
  rcases le_total y r with h | h
  · rw [abs_of_nonneg (by linarith)]
    have h2 := mul_le_mul_of_nonneg_right (show r - y ≤ c * η * r by linarith) hq.le
    have h3 : c * η * r * (1 - c * η) ≤ c * η * r := by
      apply mul_le_of_le_one_right (mul_nonneg hcη hr.le); linarith
    linarith
  · rw [abs_of_nonpos (by linarith)]
    nlinarith

theorem Bounded.exact_pos {p : Wrapper.Prec} {inn : Nat} {η : ℚ} {I R : Range} {fl : Flags} {bs : List (Wrapper.Backend σ κ)} {ctx : Nat → κ}
    {k : Nat} {l : List Node} {out : Nat} {X : Nat → Bits} {L M : Nat} (h : Bounded p inn η I R fl bs ctx k l out X L M) :
    0 < reals (fun i => (X i).val (fmtOf p)) l k out := by
  rcases Nat.lt_or_ge out k with ho | ho
  · rw [reals_old _ _ _ _ ho]
    exact Range.has_pos (h.params out ho).2.2
  · exact lt_of_lt_of_le (zpow_pos (by norm_num) _) (h.values out ho h.defined).1

/-- **C98** The relative error of what is returned: `c η / (1 - c η)`, for a cost of `c`. -/
theorem C98_error_partial {p : Wrapper.Prec} {inn : Nat} {η : ℚ} {I R : Range} {fl : Flags} {bs : List (Wrapper.Backend σ κ)} {ctx : Nat → κ}
    {k : Nat} {l : List Node} {out : Nat} {X : Nat → Bits} {L M : Nat} (h : Bounded p inn η I R fl bs ctx k l out X L M)
    (hc : costs inn (fun _ => 0) l k out * η < 1)
    (op1 : Wrapper.OpId → List (BitVec 64) → BitVec 64) (rest : Instr → Nat → List Nat → Nat) (order : List Nat)
    (hp : order.Perm (workList fl (straight (σ := σ) p k l out))) (F : Func (Nat × σ))
    (hF : replaceAll (pair p) fl (straight p k l out) order = .ok F) (m : Nat × σ) :
    |returned p op1 rest bs ctx F k X m - reals (fun i => (X i).val (fmtOf p)) l k out| ≤
      gamma (costs inn (fun _ => 0) l k out) η * reals (fun i => (X i).val (fmtOf p)) l k out := by
  obtain ⟨F', e, y, wy, -, ey, ny⟩ := C97_straight_partial p inn h.inn_le η h.nonneg h.lt_one I R h.ranges fl h.fcmp bs ctx h.meets op1 rest k l out
    h.valid h.defined order hp X h.params L M h.low h.high h.values m
  obtain rfl := Outcome.ok.inj (e.symm.trans hF)
  unfold returned
  rw [ey, ofWord_word _ y wy]
  exact near_gamma h.nonneg h.lt_one _ hc h.exact_pos ny

/-- **C98** Two executions of a function, with other backends, in other states, replaced in other orders: their results differ by the
sum of the two bounds at most. -/
theorem C98_agree_partial {p : Wrapper.Prec} {inn inn' : Nat} {η η' : ℚ} {I R I' R' : Range} {fl fl' : Flags} {bs : List (Wrapper.Backend σ κ)}
    {ctx : Nat → κ} {bs' : List (Wrapper.Backend σ' κ')} {ctx' : Nat → κ'} {k : Nat} {l : List Node} {out : Nat} {X : Nat → Bits} {L M L' M' : Nat}
    (h : Bounded p inn η I R fl bs ctx k l out X L M) (h' : Bounded p inn' η' I' R' fl' bs' ctx' k l out X L' M')
    (hc : costs inn (fun _ => 0) l k out * η < 1) (hc' : costs inn' (fun _ => 0) l k out * η' < 1)
    (op1 : Wrapper.OpId → List (BitVec 64) → BitVec 64) (rest : Instr → Nat → List Nat → Nat) (order order' : List Nat)
    (hp : order.Perm (workList fl (straight (σ := σ) p k l out))) (hp' : order'.Perm (workList fl' (straight (σ := σ') p k l out)))
    (F : Func (Nat × σ)) (F' : Func (Nat × σ')) (hF : replaceAll (pair p) fl (straight p k l out) order = .ok F)
    (hF' : replaceAll (pair p) fl' (straight p k l out) order' = .ok F') (m : Nat × σ) (m' : Nat × σ') :
    |returned p op1 rest bs ctx F k X m - returned p op1 rest bs' ctx' F' k X m'| ≤
      (gamma (costs inn (fun _ => 0) l k out) η + gamma (costs inn' (fun _ => 0) l k out) η') * reals (fun i => (X i).val (fmtOf p)) l k out := by
  have a := C98_error_partial h hc op1 rest order hp F hF m
  have b := C98_error_partial h' hc' op1 rest order' hp' F' hF' m'
  rw [abs_sub_comm] at b
  rw [add_mul]
  refine le_trans ?_ (add_le_add a b)
  exact abs_sub_le _ _ _

/-- Samples near a number: their standard deviation, relatively to their mean. -/
theorem spread (xs : List ℚ) (hn : xs ≠ []) (r g : ℚ) (hr : 0 < r) (hg1 : g < 1) (h : ∀ x ∈ xs, |x - r| ≤ g * r) :
    (1 - g) * r ≤ Ci.Report.mean xs ∧ Ci.Report.var xs * (1 - g) ^ 2 ≤ g ^ 2 * Ci.Report.mean xs ^ 2 := by
  have h1 : (1 - g) * r ≤ Ci.Report.mean xs := Ci.Stats.le_mean xs hn _ fun x hx => by
    have := (abs_le.1 (h x hx)).1
    linarith
  have h2 : Ci.Report.var xs ≤ (g * r) ^ 2 := Ci.Stats.var_le_about xs hn r _ fun x hx => by
    have := pow_le_pow_left₀ (abs_nonneg _) (h x hx) 2
    rwa [sq_abs] at this
  refine ⟨h1, ?_⟩
  have h3 : 0 ≤ (1 - g) * r := mul_nonneg (by linarith) hr.le
  have h4 := pow_le_pow_left₀ h3 h1 2
  have h5 := mul_le_mul_of_nonneg_right h2 (sq_nonneg (1 - g))
  have h6 := mul_le_mul_of_nonneg_left h4 (sq_nonneg g)
  calc Ci.Report.var xs * (1 - g) ^ 2 ≤ (g * r) ^ 2 * (1 - g) ^ 2 := h5
    _ = g ^ 2 * ((1 - g) * r) ^ 2 := by ring
    _ ≤ _ := h6

/-- **C98** The significant bits that `vfc_ci` computes from executions of a function, if it takes them for normal: at least `j`, for all
`j` with `2^j γ ≤ 1 - γ`.  The mean is at least `1 - γ` times the exact value. -/
theorem C98_digits_partial {p : Wrapper.Prec} {inn : Nat} {η : ℚ} {I R : Range} {fl : Flags} {bs : List (Wrapper.Backend σ κ)} {ctx : Nat → κ}
    {k : Nat} {l : List Node} {out : Nat} {X : Nat → Bits} {L M : Nat} (h : Bounded p inn η I R fl bs ctx k l out X L M)
    (hc : costs inn (fun _ => 0) l k out * η < 1)
    (op1 : Wrapper.OpId → List (BitVec 64) → BitVec 64) (rest : Instr → Nat → List Nat → Nat) (order : List Nat)
    (hp : order.Perm (workList fl (straight (σ := σ) p k l out))) (F : Func (Nat × σ))
    (hF : replaceAll (pair p) fl (straight p k l out) order = .ok F) (ms : List (Nat × σ))
    (lib : Ci.Stats.Lib) (hn : 1 / 20 ≤ lib.shapiro (ms.map (returned p op1 rest bs ctx F k X))) (mode : List Char) (t : ℚ)
    (row : Ci.Stats.Row) (hrow : Ci.Stats.row lib mode t (ms.map (returned p op1 rest bs ctx F k X)) = .ok row) (j : ℕ) (hj : j ≤ 53)
    (hg : 2 ^ j * gamma (costs inn (fun _ => 0) l k out) η ≤ 1 - gamma (costs inn (fun _ => 0) l k out) η)
    (hg1 : gamma (costs inn (fun _ => 0) l k out) η < 1) :
    (j : ℝ) ≤ row.s2 ∧
      (1 - gamma (costs inn (fun _ => 0) l k out) η) * reals (fun i => (X i).val (fmtOf p)) l k out ≤ row.mu := by
  have hx : ∀ x ∈ ms.map (returned p op1 rest bs ctx F k X), |x - reals (fun i => (X i).val (fmtOf p)) l k out| ≤
      gamma (costs inn (fun _ => 0) l k out) η * reals (fun i => (X i).val (fmtOf p)) l k out := by
    intro x hx
    obtain ⟨m, -, rfl⟩ := List.mem_map.1 hx
    exact C98_error_partial h hc op1 rest order hp F hF m
  have g0 := gamma_nonneg (costs inn (fun _ => 0) l k out) h.nonneg hc
  generalize hxs : ms.map (returned p op1 rest bs ctx F k X) = xs at *
  generalize gamma (costs inn (fun _ => 0) l k out) η = g at *
  have hr := h.exact_pos
  unfold Ci.Stats.row at hrow
  split_ifs at hrow with hl
  obtain rfl := Outcome.ok.inj hrow
  have hne : xs ≠ [] := by rintro rfl; simp at hl
  obtain ⟨s1, s2⟩ := spread xs hne _ g hr hg1 hx
  refine ⟨?_, s1⟩
  have hm : Ci.Report.mean xs ≠ 0 := (lt_of_lt_of_le (mul_pos (by linarith) hr) s1).ne'
  show (j : ℝ) ≤ Ci.Stats.significant lib xs _ _ _
  have key := (Ci.Stats.C99_digits lib xs (lib.shapiro xs) hn hm (j : ℤ)).2 ⟨?_, by omega⟩
  · exact_mod_cast key
  · rw [zpow_natCast]
    have h4 : (4 : ℚ) ^ j = (2 ^ j) ^ 2 := by rw [← pow_mul, mul_comm, pow_mul]; norm_num
    have hp1 : (0 : ℚ) < (1 - g) ^ 2 := pow_pos (by linarith) 2
    have h5 := pow_le_pow_left₀ (by positivity) hg 2
    rw [mul_pow] at h5
    have h6 := mul_le_mul_of_nonneg_left s2 (sq_nonneg ((2 : ℚ) ^ j))
    have h7 := mul_le_mul_of_nonneg_right h5 (sq_nonneg (Ci.Report.mean xs))
    rw [h4]
    refine le_of_mul_le_mul_right ?_ hp1
    linarith

/-! ## Examples: 1 + 2 + 3 -/

theorem six : reals (fun i => (oneTwoThree i).val (fmtOf .double)) (sumNodes 0 1 2 3) 3 4 = 6 ∧
    reals (fun i => (oneTwoThree i).val (fmtOf .double)) (sumNodes 0 1 2 3) 3 3 = 3 := by
  have v1 : (oneTwoThree 0).val (fmtOf .double) = 1 := by norm_num [oneTwoThree, fmtOf, Bits.val, Bits.sig, Bits.lsb, sgn, b64, Fmt.bias]
  have v2 : (oneTwoThree 1).val (fmtOf .double) = 2 := by norm_num [oneTwoThree, fmtOf, Bits.val, Bits.sig, Bits.lsb, sgn, b64, Fmt.bias]
  have v3 : (oneTwoThree 2).val (fmtOf .double) = 3 := by norm_num [oneTwoThree, fmtOf, Bits.val, Bits.sig, Bits.lsb, sgn, b64, Fmt.bias]
  constructor
  · show (oneTwoThree 0).val (fmtOf .double) + (oneTwoThree 1).val (fmtOf .double) + (oneTwoThree 2).val (fmtOf .double) = 6
    rw [v1, v2, v3]; norm_num
  · show (oneTwoThree 0).val (fmtOf .double) + (oneTwoThree 1).val (fmtOf .double) = 3
    rw [v1, v2]; norm_num

/-- 1 + 2 + 3 with any backends that have a small error and enough range. -/
theorem sum_bounded (η : ℚ) (h0 : 0 ≤ η) (h1 : η ≤ 1 / 4) (I R : Range) (hIR : I.low ≤ R.low ∧ R.high ≤ I.high) (hl : R.low ≤ -4) (hh : 4 < R.high)
    (bs : List (Wrapper.Backend σ κ)) (ctx : Nat → κ) (hm : Meets ⟨false, false, false⟩ (ErrContract .double 0 η I R) bs ctx) :
    Bounded .double 0 η I R ⟨false, false, false⟩ bs ctx 3 (sumNodes 0 1 2 3) 4 oneTwoThree 3 1 where
  inn_le := by omega
  nonneg := h0
  lt_one := by linarith
  ranges := hIR
  fcmp := rfl
  meets := hm
  valid := sumNodes_valid 0 1 2 3 (by omega) (by omega)
  defined := by rw [sumNodes_length]; omega
  params := by
    have hi : ∀ x : ℚ, 1 ≤ x → x < 16 → I.Has x := by
      intro x h1 h2
      exact ⟨le_trans (show (2 : ℚ) ^ I.low ≤ 2 ^ (0 : ℤ) from zpow_le_zpow_right₀ (by norm_num) (by omega)) (by simpa using h1),
        lt_of_lt_of_le (show x < 2 ^ (4 : ℤ) by norm_num; exact h2) (zpow_le_zpow_right₀ (by norm_num) (by omega))⟩
    intro i hi3
    match i, hi3 with
    | 0, _ => exact ⟨by decide, by decide, by apply hi <;> norm_num [oneTwoThree, fmtOf, Bits.val, Bits.sig, Bits.lsb, sgn, b64, Fmt.bias]⟩
    | 1, _ => exact ⟨by decide, by decide, by apply hi <;> norm_num [oneTwoThree, fmtOf, Bits.val, Bits.sig, Bits.lsb, sgn, b64, Fmt.bias]⟩
    | 2, _ => exact ⟨by decide, by decide, by apply hi <;> norm_num [oneTwoThree, fmtOf, Bits.val, Bits.sig, Bits.lsb, sgn, b64, Fmt.bias]⟩
  low := by norm_num; omega
  high := by norm_num; omega
  values := by
    have hq : factor η ≤ 4 / 3 := by
      unfold factor
      rw [inv_le_comm₀ (by linarith) (by norm_num)]
      norm_num
      linarith
    have hq0 : 0 ≤ factor η := le_trans (by norm_num) (one_le_factor h0 (by linarith))
    intro i h1 h2
    rw [sumNodes_length] at h2
    rcases (by omega : i = 3 ∨ i = 4) with rfl | rfl
    · rw [six.2, show costs 0 (fun _ => 0) (sumNodes 0 1 2 3) 3 3 = 1 from rfl]
      refine ⟨by norm_num, by norm_num, le_trans (pow_le_pow_left₀ hq0 hq 1) (by norm_num)⟩
    · rw [six.1, show costs 0 (fun _ => 0) (sumNodes 0 1 2 3) 3 4 = 2 from rfl]
      refine ⟨by norm_num, by norm_num, le_trans (pow_le_pow_left₀ hq0 hq 2) (by norm_num)⟩

/-- VPREC at precision 10 with 5 bits of exponent, in ob mode: within `2^-7` of 6. -/
example (bs : List (Wrapper.Backend σ κ)) (ctx : Nat → κ) (rest : Instr → Nat → List Nat → Nat) (F : Func (Nat × σ))
    (hF : replaceAll (pair .double) ⟨false, false, false⟩ (straight .double 3 (sumNodes 0 1 2 3) 4) [4, 3] = .ok F) (m : Nat × σ) :
    |returned .double ieee rest (bs ++ [vprecBackend .wrap { Vprec.Config.init with prec64 := 10, range64 := 5 }]) ctx F 3 oneTwoThree m - 6| ≤ 1 / 128 := by
  have hm := C98_vprec_partial (σ := σ) .double .wrap { Vprec.Config.init with prec64 := 10, range64 := 5 } ⟨by decide, by decide, by decide, by decide⟩ rfl
    (Or.inl rfl) ⟨false, false, false⟩ rfl rfl bs ctx
  have he : chain b64 (2 ^ (-(10 : ℤ) - 1)) ≤ 1 / 2000 := by norm_num [chain, b64]
  have he0 : 0 ≤ chain b64 (2 ^ (-(10 : ℤ) - 1)) := by norm_num [chain, b64]
  have hb := sum_bounded (chain b64 (2 ^ (-(10 : ℤ) - 1))) he0 (by linarith) (formatRange 5) (formatRange 5).inner (by decide) (by decide) (by decide) _ ctx
    (hm.mono (signed_err .double 0 _ (by simp) (formatRange 5) (formatRange 5).inner))
  generalize chain b64 (2 ^ (-(10 : ℤ) - 1)) = e at he he0 hb
  have key := C98_error_partial hb (by show ((2 : ℕ) : ℚ) * _ < 1; rw [Nat.cast_ofNat]; linarith) ieee rest [4, 3] (List.Perm.swap 3 4 []) F hF m
  rw [six.1, show costs 0 (fun _ => 0) (sumNodes 0 1 2 3) 3 4 = 2 from rfl] at key
  refine le_trans key ?_
  unfold gamma
  rw [div_mul_eq_mul_div, div_le_iff₀ (by push_cast; linarith)]
  push_cast
  linarith

/-- Three executions with integer MCA in rr mode at precision 24: at least 21 significant bits, and a mean close to 6. -/
example (g : Mca.Gen σ) (bs : List (Wrapper.Backend σ κ)) (ctx : Nat → κ) (rest : Instr → Nat → List Nat → Nat) (F : Func (Nat × σ))
    (hF : replaceAll (pair .double) ⟨false, false, false⟩ (straight .double 3 (sumNodes 0 1 2 3) 4) [4, 3] = .ok F) (a b c : Nat × σ)
    (lib : Ci.Stats.Lib) (hn : ∀ xs, 1 / 20 ≤ lib.shapiro xs) :
    ∃ row, Ci.Stats.row lib [] 0 ([a, b, c].map (returned .double ieee rest (bs ++ [mcaIntBackend .wrap g { Mca.init with mode := .rr, prec64 := 24 }]) ctx
      F 3 oneTwoThree)) = .ok row ∧ (21 : ℝ) ≤ row.s2 ∧ 6 - 1 / 2 ^ 18 ≤ row.mu := by
  have hm : Meets ⟨false, false, false⟩ (ErrContract .double 0 (opError .f64 (2 ^ (1 - ((24 : ℕ) : ℤ)))) (finite b64) (ordinary b64))
      (bs ++ [mcaIntBackend .wrap g { Mca.init with mode := .rr, prec64 := 24 }]) ctx :=
    (C96_int_relative_partial g { Mca.init with mode := .rr, prec64 := 24 } rfl rfl (fun _ => 24)
      (fun T => by cases T <;> rfl) (fun T => by cases T <;> decide) ⟨false, false, false⟩ rfl bs ctx).mono
      (rel_err .rr _ .double (zpow_pos (by norm_num) _).le (pow_half 24 (by norm_num)))
  have he : opError .f64 (2 ^ (1 - ((24 : ℕ) : ℤ))) ≤ 2 ^ (-23 : ℤ) + 2 ^ (-50 : ℤ) := by norm_num [opError, Mca.Ty.wide, Mca.Ty.fmt, b64, b128]
  have he0 : 0 ≤ opError .f64 (2 ^ (1 - ((24 : ℕ) : ℤ))) := by norm_num [opError, Mca.Ty.wide, Mca.Ty.fmt, b64, b128]
  have hb := sum_bounded _ he0 (le_trans he (by norm_num)) (finite b64) (ordinary b64) (by decide) (by decide) (by decide) _ ctx hm
  generalize opError .f64 (2 ^ (1 - ((24 : ℕ) : ℤ))) = e at *
  have he' : e ≤ 1 / 8388608 + 1 / 1125899906842624 := by norm_num at he ⊢; exact he
  have hg : gamma 2 e ≤ 1 / 4194300 := by
    unfold gamma
    rw [div_le_iff₀ (by push_cast; linarith)]
    push_cast
    linarith
  refine ⟨_, if_neg (by simp), ?_⟩
  have key := C98_digits_partial hb (by show ((2 : ℕ) : ℚ) * _ < 1; rw [Nat.cast_ofNat]; linarith) ieee rest [4, 3] (List.Perm.swap 3 4 []) F hF [a, b, c] lib (hn _) [] 0 _
    (if_neg (by simp)) 21 (by omega)
    (by rw [show costs 0 (fun _ => 0) (sumNodes 0 1 2 3) 3 4 = 2 from rfl]; norm_num; linarith)
    (by rw [show costs 0 (fun _ => 0) (sumNodes 0 1 2 3) 3 4 = 2 from rfl]; linarith)
  rw [six.1, show costs 0 (fun _ => 0) (sumNodes 0 1 2 3) 3 4 = 2 from rfl] at key
  refine ⟨by exact_mod_cast key.1, le_trans ?_ key.2⟩
  norm_num
  linarith

end Verif.Pass
