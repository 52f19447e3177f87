import Verif.Mca.StochQuad
import Verif.Mca.ErrProps

/-!
# Property C87: the mean of random rounding, and where it is not stochastic rounding
-/

namespace Verif.Mca
open Verif Verif.Fp

/-! ## The mean -/

/-- The number an operation returns, zero when it does not return. -/
def resVal {σ : Type} (F : Fmt) : Outcome (Bits × σ) → ℚ
  | .ok (r, _) => r.val F
  | _ => 0

theorem sum_two (p : Nat → Prop) [DecidablePred p] (v : Nat → ℚ) (a b c : ℚ) (m : Nat)
    (h : ∀ k, v k = if p k then b else a) :
    ∑ k ∈ Finset.range m, (v k - c) = m * (a - c) + Nat.count p m * (b - a) := by
  have e : ∀ k, v k - c = (a - c) + (if p k then (1 : ℚ) else 0) * (b - a) := by
    intro k
    rw [h]
    split_ifs <;> ring
  simp only [e]
  rw [Finset.sum_add_distrib, Finset.sum_const, Finset.card_range, nsmul_eq_mul, ← Finset.sum_mul, Rng.count_sum p]

theorem mean_arith (N n : ℕ) (X φ U : ℚ) (hN : (N : ℚ) + 1 = 2 ^ 128) (hU : 0 ≤ U) (hφ0 : 0 ≤ φ) (hφ1 : φ ≤ 1)
    (hX : 0 ≤ X) (h1 : (n : ℚ) ≤ φ * 2 ^ 128) (h2 : φ * 2 ^ 128 ≤ n + X + 1) :
    |(N : ℚ) * (-(φ * U)) + n * U| ≤ (X + 1) * U := by
  have e : (N : ℚ) * (-(φ * U)) + n * U = (n - φ * N) * U := by ring
  rw [e, abs_mul, abs_of_nonneg hU]
  apply mul_le_mul_of_nonneg_right _ hU
  rw [← hN] at h1 h2
  rw [abs_le]
  constructor <;> nlinarith

/-- **C87**, the mean: over one period of the generator the results of the integer backend in rr
mode average to the result of the wide type, up to `2^-29` (`float`) or `2^-60` (`double`) of the
distance of the two neighbours (the sum is over `2^128 - 1` draws). -/
theorem C87_mean (sem : ShiftSem) (T : Ty) (c : Ctx) (hm : c.mode = .rr) (hd : c.daz = false)
    (hf : c.ftz = false) (hs : 1 ≤ c.sparsity) (hp : c.prec T = (T.fmt.mw + 1 : ℕ)) (op : List Bits → Bits)
    (args : List Bits) (lo hi x : Bits) (hx : op (args.map (fconv T.fmt T.wide)) = x)
    (h : Between T lo hi x) (_ : hi.Fin T.fmt) (s : Rng.St) (h0 : s ≠ ⟨0, 0⟩) :
    |∑ k ∈ Finset.range Rng.N, (resVal T.fmt (opN T (intInexact sem rngGen T c) op c (Rng.next^[k] s) args) -
      x.val T.wide)| ≤ (2 ^ (128 - T.low) + 1) * (|hi.val T.fmt| - |lo.val T.fmt|) := by
  obtain ⟨hall, n, hn, n1, n2⟩ := C87_int sem T c hm hd hf hs hp op args lo hi x hx h s h0
  have hne : hi ≠ lo := by
    intro e
    have := congrArg (Bits.pat T.fmt) e
    rw [h.succ, pat_ofPat] at this
    omega
  have hv : ∀ k, resVal T.fmt (opN T (intInexact sem rngGen T c) op c (Rng.next^[k] s) args) =
      if opN T (intInexact sem rngGen T c) op c (Rng.next^[k] s) args = .ok (hi, Rng.next^[k + 1] s)
      then hi.val T.fmt else lo.val T.fmt := by
    intro k
    rcases hall k with e | e
    · rw [e, if_neg]
      · rfl
      · intro e2; exact hne (congrArg Prod.fst (Outcome.ok.inj e2)).symm
    · rw [e, if_pos rfl]; rfl
  have hsum := sum_two _ _ (lo.val T.fmt) (hi.val T.fmt) (x.val T.wide) Rng.N hv
  rw [← hn] at hsum
  rw [hsum]
  clear hsum hv hn hall
  have hb := h.below
  have ha := h.above
  have sabs : ∀ (F : Fmt) (y : Bits), y.val F = sgn y.sign * |y.val F| := by
    intro F y
    rw [abs_val_mag, val_eq_mag, mul_assoc]
  have hhs : hi.sign = x.sign := by rw [h.succ]; rfl
  have el := sabs T.fmt lo
  have eh := sabs T.fmt hi
  have ex := sabs T.wide x
  rw [h.sign] at el
  rw [hhs] at eh
  obtain ⟨a, ea⟩ : ∃ a, a = |lo.val T.fmt| := ⟨_, rfl⟩
  obtain ⟨b, eb⟩ : ∃ b, b = |hi.val T.fmt| := ⟨_, rfl⟩
  obtain ⟨v, ev⟩ : ∃ v, v = |x.val T.wide| := ⟨_, rfl⟩
  rw [← ea, ← eb, ← ev] at n1 n2
  rw [← ea] at el
  rw [← eb] at eh
  rw [← ev] at ex
  rw [← ea, ← eb, el, eh, ex]
  rw [← ea, ← ev] at hb
  rw [← eb, ← ev] at ha
  have hU : 0 < b - a := by linarith
  obtain ⟨φ, eφ⟩ : ∃ φ, φ = (v - a) / (b - a) := ⟨_, rfl⟩
  rw [← eφ] at n1 n2
  have hφ : φ * (b - a) = v - a := by rw [eφ]; field_simp
  have hN : ((Rng.N : ℕ) : ℚ) + 1 = 2 ^ 128 := by
    have : Rng.N + 1 = 2 ^ 128 := by unfold Rng.N; norm_num
    exact_mod_cast this
  have key := mean_arith Rng.N n (2 ^ (128 - T.low)) φ (b - a) hN hU.le
    (by rw [eφ]; exact div_nonneg (by linarith) hU.le)
    (by rw [eφ, div_le_one hU]; linarith) (by positivity) n1 n2
  have e : (Rng.N : ℚ) * (sgn x.sign * a - sgn x.sign * v) + n * (sgn x.sign * b - sgn x.sign * a) =
      sgn x.sign * ((Rng.N : ℚ) * (-(φ * (b - a))) + n * (b - a)) := by rw [hφ]; ring
  have h1 : |sgn x.sign| = 1 := by rcases sgn_cases x.sign with e | e <;> rw [e] <;> norm_num
  rw [e, abs_mul, h1, one_mul]
  exact key

/-! ## Below the normal range -/

/-- Close to a number of the type there is no other to round to. -/
theorem near_rounds (T : Ty) (lo y : Bits) (hy : y.Fin T.wide) (hmax : |y.val T.wide| ≤ maxVal T.fmt)
    (hwl : lo.WF T.fmt) (h : |lo.val T.fmt - y.val T.wide| < 2 ^ T.fmt.uexp / 2) :
    (fconv T.wide T.fmt y).val T.fmt = lo.val T.fmt := by
  obtain ⟨-, -, -, r4⟩ := fconv_round T.wide T.fmt (by cases T <;> decide) y hy hmax
  have h1 := lt_of_le_of_lt (r4 lo hwl) h
  have h2 : |(fconv T.wide T.fmt y).val T.fmt - lo.val T.fmt| < 2 ^ T.fmt.uexp := by
    have e : (fconv T.wide T.fmt y).val T.fmt - lo.val T.fmt =
      ((fconv T.wide T.fmt y).val T.fmt - y.val T.wide) - (lo.val T.fmt - y.val T.wide) := by ring
    rw [e]
    exact lt_of_le_of_lt (abs_sub _ _) (by linarith)
  have hu : (0 : ℚ) < 2 ^ T.fmt.uexp := zpow_pos (by norm_num) _
  rw [val_eq_imag, val_eq_imag] at h2 ⊢
  rw [← sub_mul, abs_mul, abs_of_pos hu] at h2
  have h3 : |((fconv T.wide T.fmt y).imag T.fmt : ℚ) - lo.imag T.fmt| < 1 := by
    by_contra hc
    rw [not_lt] at hc
    have := mul_le_mul_of_nonneg_right hc hu.le
    linarith
  have h4 : |(fconv T.wide T.fmt y).imag T.fmt - lo.imag T.fmt| < 1 := by exact_mod_cast h3
  have h5 := Int.abs_lt_one_iff.1 h4
  have : (fconv T.wide T.fmt y).imag T.fmt = lo.imag T.fmt := by omega
  rw [this]

/-- A result below the normal range is displaced by at most `2^-23` (`float`) or `2^-52` (`double`)
of its magnitude, whatever the draw. -/
theorem small_bounds (T : Ty) (x : Bits) (h1 : 1 ≤ x.exp)
    (hsm : |x.val T.wide| ≤ 2 ^ (T.fmt.uexp + T.fmt.mw - 3)) :
    (2 : ℚ) ^ ((x.exp : ℤ) - T.wide.bias) ≤ |x.val T.wide| ∧
    (x.exp : ℤ) - T.wide.bias ≤ T.fmt.uexp + T.fmt.mw - 3 ∧
    (2 : ℚ) ^ ((x.exp : ℤ) - T.wide.bias - T.fmt.mw) ≤ 2 ^ (T.fmt.uexp - 3) := by
  have a1 : (2 : ℚ) ^ ((x.exp : ℤ) - T.wide.bias) ≤ |x.val T.wide| := by
    rw [abs_val]
    have hl : x.lsb T.wide = (x.exp : ℤ) - T.wide.bias - T.wide.mw := by unfold Bits.lsb; rw [max_eq_left h1]
    have e2 : (2 : ℚ) ^ ((x.exp : ℤ) - T.wide.bias) = 2 ^ T.wide.mw * 2 ^ x.lsb T.wide := by
      rw [← zpow_natCast, ← zpow_add₀ (by norm_num), hl]; congr 1; ring
    rw [e2]
    apply mul_le_mul_of_nonneg_right _ (zpow_pos (by norm_num) _).le
    have : 2 ^ T.wide.mw ≤ x.sig T.wide := by unfold Bits.sig; rw [if_neg (by omega)]; omega
    exact_mod_cast this
  have a2 := (zpow_le_zpow_iff_right₀ (by norm_num : (1 : ℚ) < 2)).1 (le_trans a1 hsm)
  exact ⟨a1, a2, zpow_le_zpow_right₀ (by norm_num) (by omega)⟩

theorem small_max (T : Ty) (v : ℚ) (h : |v| ≤ 2 ^ (T.fmt.uexp + T.fmt.mw - 2)) : |v| ≤ maxVal T.fmt := by
  refine le_trans h (le_trans ?_ (le_maxVal T.fmt))
  exact zpow_le_zpow_right₀ (by norm_num) (by cases T <;> decide)

/-- **C87 fails below the normal range**, integer backend: a result at most an eighth of the
smallest normal number and within a quarter of the spacing of a number `lo` of the type is rounded
to `lo` by every draw, though its position calls for the other neighbour up to one time in four. -/
theorem C87_subnormal_wrong (sem : ShiftSem) {σ : Type} (g : Gen σ) (T : Ty) (c : Ctx) (hm : c.mode = .rr)
    (hd : c.daz = false) (hf : c.ftz = false) (hs : 1 ≤ c.sparsity) (hp : c.prec T = (T.fmt.mw + 1 : ℕ))
    (op : List Bits → Bits) (args : List Bits) (lo x : Bits) (hx : op (args.map (fconv T.fmt T.wide)) = x)
    (hwx : x.WF T.wide) (h1 : 1 ≤ x.exp) (hsm : |x.val T.wide| ≤ 2 ^ (T.fmt.uexp + T.fmt.mw - 3))
    (hwl : lo.WF T.fmt) (hlo : |lo.val T.fmt - x.val T.wide| ≤ 2 ^ T.fmt.uexp / 4) (s : σ) :
    ∃ r s', opN T (intInexact sem g T c) op c s args = .ok (r, s') ∧ r.val T.fmt = lo.val T.fmt := by
  obtain ⟨hmw, hbias, hF1, hL1, -, -, -, hu, hei⟩ := ty_facts T
  obtain ⟨b1, b2, b3⟩ := small_bounds T x h1 hsm
  have huF : T.fmt.uexp + T.fmt.mw - 3 < 0 := by cases T <;> decide
  have hinf : T.wide.expInf = 2 * T.wide.bias + 1 := (wide_bias T.wide (wide_ty T)).2.2.2.1
  have hu0 : (0 : ℚ) < 2 ^ T.fmt.uexp := zpow_pos (by norm_num) _
  have e8 : (2 : ℚ) ^ (T.fmt.uexp - 3) = 2 ^ T.fmt.uexp / 8 := by
    rw [zpow_sub₀ (by norm_num)]; norm_num
  have e2 : (2 : ℚ) ^ (T.fmt.uexp + T.fmt.mw - 2) = 2 * 2 ^ (T.fmt.uexp + T.fmt.mw - 3) := by
    rw [show T.fmt.uexp + (T.fmt.mw : ℤ) - 2 = (T.fmt.uexp + T.fmt.mw - 3) + 1 by ring, zpow_add_one₀ (by norm_num)]
    ring
  have h8 : (2 : ℚ) ^ T.fmt.uexp / 8 ≤ 2 ^ (T.fmt.uexp + T.fmt.mw - 3) := by
    rw [← e8]; exact zpow_le_zpow_right₀ (by norm_num) (by omega)
  have main : ∃ y s', intInexact sem g T c s x = .ok (y, s') ∧ y.Fin T.wide ∧
      |y.val T.wide - x.val T.wide| ≤ 2 ^ T.fmt.uexp / 8 := by
    unfold intInexact inexact
    rw [hp]
    by_cases hmust : mustNotBeNoised T.wide c.mode ((T.fmt.mw + 1 : ℕ) : ℤ) x = true
    · rw [if_pos hmust]
      refine ⟨x, s, rfl, by unfold Bits.Fin; omega, ?_⟩
      rw [sub_self, abs_zero]; positivity
    · rw [if_neg hmust]
      obtain ⟨y, y1, y2, y3, y4, y5, y6, y7, y8, -⟩ := C19_bound sem T.wide (wide_ty T) (T.fmt.mw + 1) (by omega) (by omega)
        (g.next s).1 x hwx h1 (by omega)
      refine ⟨y, (g.next s).2, ?_, y7 (by omega), ?_⟩
      · unfold skipEval
        rw [if_pos hs]
        simp only [Bool.false_eq_true, if_false]
        unfold intPerturb
        rw [y1]
        rfl
      · refine le_trans y8 ?_
        rw [← e8]
        refine le_trans (le_of_eq ?_) b3
        congr 1
        push_cast
        ring
  obtain ⟨y, s', m1, m2, m3⟩ := main
  refine ⟨_, s', opN_rr T _ op c hm hd hf s s' args y (by rw [hx]; exact m1), ?_⟩
  apply near_rounds T lo y m2 _ hwl
  · have e : lo.val T.fmt - y.val T.wide = (lo.val T.fmt - x.val T.wide) - (y.val T.wide - x.val T.wide) := by ring
    rw [e]
    exact lt_of_le_of_lt (abs_sub _ _) (by linarith)
  · apply small_max
    have e : y.val T.wide = x.val T.wide + (y.val T.wide - x.val T.wide) := by ring
    rw [e, e2]
    exact le_trans (abs_add_le _ _) (by linarith)

/-- A binary operation of the wide type on a list of operands. -/
def two (f : Bits → Bits → Bits) : List Bits → Bits
  | [a, b] => f a b
  | _ => zeroBits false

/-- The product of `1.25 * 2^-100` and `2^-49`, between `2^-149` and `2^-148`, is `2^-149` for all
draws. -/
example (s : Rng.St) : ∃ r s', opN .f32 (intInexact .strict rngGen .f32 { init with mode := .rr })
    (two (fmul b64)) { init with mode := .rr } s [⟨false, 27, 2 ^ 21⟩, ⟨false, 78, 0⟩] = .ok (r, s') ∧
    r.val b32 = Bits.val b32 ⟨false, 0, 1⟩ := by
  refine C87_subnormal_wrong .strict rngGen .f32 { init with mode := .rr } rfl rfl rfl (by norm_num [init]) rfl _ _
    ⟨false, 0, 1⟩ ⟨false, 874, 2 ^ 50⟩ (by decide +kernel) (by decide) (by decide) ?_ (by decide) ?_ s
  · norm_num [Bits.val, Bits.sig, Bits.lsb, sgn, Ty.wide, Ty.fmt, b64, b32, Fmt.bias, Fmt.uexp]
  · norm_num [Bits.val, Bits.sig, Bits.lsb, sgn, Ty.wide, Ty.fmt, b64, b32, Fmt.bias, Fmt.uexp]

/-! ## The two other limits of the quad backend -/

theorem between_one (m : ℕ) (hm : m < 2 ^ 22) (f : ℕ) (h0 : 0 < f) (h1 : f < 2 ^ 29) :
    Between .f32 ⟨false, 127, m⟩ ⟨false, 127, m + 1⟩ ⟨false, 1023, m * 2 ^ 29 + f⟩ := by
  have hf0 : (0 : ℚ) < f := by exact_mod_cast h0
  have hf1 : (f : ℚ) < 2 ^ 29 := by exact_mod_cast h1
  have hpat : Bits.pat b32 ⟨false, 127, m⟩ = 127 * 2 ^ 23 + m := rfl
  have v1 : ∀ n : ℕ, |Bits.val b32 ⟨false, 127, n⟩| = (2 ^ 23 + n) * 2 ^ (-23 : ℤ) := by
    intro n
    rw [abs_of_nonneg]
    · norm_num [Bits.val, Bits.sig, Bits.lsb, sgn, b32, Fmt.bias]
    · norm_num [Bits.val, Bits.sig, Bits.lsb, sgn, b32, Fmt.bias]; positivity
  have v2 : ∀ n : ℕ, |Bits.val b64 ⟨false, 1023, n⟩| = (2 ^ 52 + n) * 2 ^ (-52 : ℤ) := by
    intro n
    rw [abs_of_nonneg]
    · norm_num [Bits.val, Bits.sig, Bits.lsb, sgn, b64, Fmt.bias]
    · norm_num [Bits.val, Bits.sig, Bits.lsb, sgn, b64, Fmt.bias]; positivity
  refine ⟨⟨show 1023 < 2 ^ 11 by norm_num, ?_⟩, show (1023 : ℕ) ≠ 2 ^ 11 - 1 by norm_num,
    ⟨show 127 < 2 ^ 8 by norm_num, ?_⟩, rfl, ?_, show 127 < 2 ^ 8 - 1 by norm_num, ?_, ?_, ?_⟩
  · show m * 2 ^ 29 + f < 2 ^ 52; omega
  · show m < 2 ^ 23; omega
  · show _ = ofPat b32 false (Bits.pat b32 _ + 1)
    rw [hpat, Nat.add_assoc]
    exact (ofPat_mk b32 false 127 (m + 1) (by show m + 1 < 2 ^ 23; omega)).symm
  · show 2 ^ 23 < Bits.pat b32 _; rw [hpat]; omega
  · show |Bits.val b32 _| < |Bits.val b64 _|
    rw [v1, v2]; push_cast; norm_num; linarith
  · show |Bits.val b64 _| < |Bits.val b32 _|
    rw [v1, v2]; push_cast; norm_num; linarith

/-- In `float`, `1 + 2^-23 + 2^-25` is rounded up about one time in four. -/
example (s : Rng.St) (h0 : s ≠ ⟨0, 0⟩) : ∃ n : ℕ, n = Nat.count (fun k => opN .f32 (intInexact .strict rngGen .f32
      { init with mode := .rr }) (two (fadd b64)) { init with mode := .rr } (Rng.next^[k] s)
      [⟨false, 127, 1⟩, ⟨false, 102, 0⟩] = .ok (⟨false, 127, 2⟩, Rng.next^[k + 1] s)) Rng.N ∧
    (n : ℚ) ≤ 2 ^ 126 ∧ 2 ^ 126 ≤ (n : ℚ) + 2 ^ 99 + 1 := by
  have h := (C87_int .strict .f32 { init with mode := .rr } rfl rfl rfl (by norm_num [init]) rfl (two (fadd b64))
    [⟨false, 127, 1⟩, ⟨false, 102, 0⟩] ⟨false, 127, 1⟩ ⟨false, 127, 2⟩ ⟨false, 1023, 1 * 2 ^ 29 + 2 ^ 27⟩
    (by decide +kernel) (between_one 1 (by norm_num) (2 ^ 27) (by norm_num) (by norm_num)) s h0).2
  have e : (|Bits.val b64 ⟨false, 1023, 1 * 2 ^ 29 + 2 ^ 27⟩| - |Bits.val b32 ⟨false, 127, 1⟩|) /
      (|Bits.val b32 ⟨false, 127, 2⟩| - |Bits.val b32 ⟨false, 127, 1⟩|) * 2 ^ 128 = 2 ^ 126 := by
    norm_num [Bits.val, Bits.sig, Bits.lsb, sgn, b64, b32, Fmt.bias]
  obtain ⟨n, hn, a1, a2⟩ := h
  exact ⟨n, hn, le_trans a1 (le_of_eq e), le_trans (le_of_eq e.symm) a2⟩

/-- **C87 fails** for the draw one half in the quad backend: `float` numbers near 1, whose sum
lies between two of the type, add up to infinity. -/
theorem C87_half_wrong : Between .f32 ⟨false, 127, 1⟩ ⟨false, 127, 2⟩ ⟨false, 1023, 1 * 2 ^ 29 + 2 ^ 27⟩ ∧
    opN .f32 (quadInexact rngGen .f32 { init with mode := .rr }) (two (fadd b64))
      { init with mode := .rr } ⟨2 ^ 63, 2 ^ 63⟩ [⟨false, 127, 1⟩, ⟨false, 102, 0⟩] =
      .ok (infBits b32 false, Rng.next ⟨2 ^ 63, 2 ^ 63⟩) :=
  ⟨between_one 1 (by norm_num) (2 ^ 27) (by norm_num) (by norm_num), by decide +kernel⟩

/-- **C87 fails** next to powers of two in the quad backend: a sum between 1 and its successor is
rounded to the predecessor of 1. -/
theorem C87_power_wrong : Between .f32 ⟨false, 127, 0⟩ ⟨false, 127, 1⟩ ⟨false, 1023, 0 * 2 ^ 29 + 4⟩ ∧
    opN .f32 (quadInexact rngGen .f32 { init with mode := .rr }) (two (fadd b64))
      { init with mode := .rr } ⟨1, 2 ^ 64 - 1⟩ [⟨false, 127, 0⟩, ⟨false, 77, 0⟩] =
      .ok (⟨false, 126, 2 ^ 23 - 1⟩, Rng.next ⟨1, 2 ^ 64 - 1⟩) :=
  ⟨between_one 0 (by norm_num) 4 (by norm_num) (by norm_num), by decide +kernel⟩

end Verif.Mca
