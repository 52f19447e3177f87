import Verif.Vprec.Ops
import Verif.Vprec.ConfigProps
import Verif.Vprec.Props2

/-!
# C09 (operation modes) and C50 (cast)
-/

namespace Verif.Vprec.Ops
open Verif Verif.Fp Verif.Vprec.Config

/-- Modes that round the operands / the result, as documented
(doc/02-Backends.md, VPREC `--mode`). -/
def RoundsOperands (m : Mode) : Prop := m = .ib ∨ m = .full
def RoundsResult (m : Mode) : Prop := m = .ob ∨ m = .full

/-- The type of a call, its operands, the hardware operation, and the format
configured for the type. -/
structure View where
  F : Fmt
  w : Nat
  range : Int
  prec : Int
  args : List Bits
  hw : List Bits → Bits

def apply2 (f : Bits → Bits → Bits) : List Bits → Bits
  | [a, b] => f a b
  | _ => zeroBits false
def apply3 (f : Bits → Bits → Bits → Bits) : List Bits → Bits
  | [a, b, c] => f a b c
  | _ => zeroBits false

def view (hw32 hw64 : HW) (c : Cfg) : Call → Option View
  | .bin32 op a b => some ⟨b32, 32, c.range32, c.prec32, [a, b], apply2 (hw32.op2 op)⟩
  | .bin64 op a b => some ⟨b64, 64, c.range64, c.prec64, [a, b], apply2 (hw64.op2 op)⟩
  | .fma32 a b d => some ⟨b32, 32, c.range32, c.prec32, [a, b, d], apply3 hw32.fma⟩
  | .fma64 a b d => some ⟨b64, 64, c.range64, c.prec64, [a, b, d], apply3 hw64.fma⟩
  | .cast _ => none

/-- The list of operands after rounding, when every rounding is defined. -/
def AllRounded (sem : ShiftSem) (c : Cfg) (v : View) (args' : List Bits) : Prop :=
  List.Forall₂ (fun x x' => roundBinary sem v.F v.w x true c.ctx v.range.toNat v.prec = .ok x') v.args args'

/-- C09.  Every arithmetic call, in every mode: the operands given to the hardware
are the rounded ones exactly when the mode rounds operands, and the result is the
hardware's own or its rounding exactly when the mode rounds results. -/
theorem C09_modes (sem : ShiftSem) (hw32 hw64 : HW) (c : Cfg) (k : Call) (v : View)
    (hv : view hw32 hw64 c k = some v) (used : List Bits)
    (hused : (RoundsOperands c.mode → AllRounded sem c v used) ∧ (¬ RoundsOperands c.mode → used = v.args)) :
    (¬ RoundsResult c.mode → exec sem hw32 hw64 c k = .ok (v.hw used)) ∧
    (RoundsResult c.mode → exec sem hw32 hw64 c k =
      roundBinary sem v.F v.w (v.hw used) false c.ctx v.range.toNat v.prec) := by
  obtain ⟨h1, h2⟩ := hused
  unfold RoundsOperands at h1 h2
  unfold RoundsResult
  unfold AllRounded at h1
  cases k with
  | cast x => exact absurd hv (by simp [view])
  | bin32 op a b =>
    simp only [view, Option.some.injEq] at hv
    subst hv
    cases hm : c.mode <;> simp only [hm, reduceCtorEq, or_self, or_true, true_or, not_false_eq_true, not_true_eq_false, forall_true_left, false_implies] at h1 h2 ⊢ <;>
    first
    | (subst h2; simp [exec, binaryOp, hm, apply2])
    | (rcases h1 with _ | ⟨ha, h1⟩
       rcases h1 with _ | ⟨hb, h1⟩
       rcases h1 with _ | _
       simp [exec, binaryOp, hm, apply2, ha, hb])
  | bin64 op a b =>
    simp only [view, Option.some.injEq] at hv
    subst hv
    cases hm : c.mode <;> simp only [hm, reduceCtorEq, or_self, or_true, true_or, not_false_eq_true, not_true_eq_false, forall_true_left, false_implies] at h1 h2 ⊢ <;>
    first
    | (subst h2; simp [exec, binaryOp, hm, apply2])
    | (rcases h1 with _ | ⟨ha, h1⟩
       rcases h1 with _ | ⟨hb, h1⟩
       rcases h1 with _ | _
       simp [exec, binaryOp, hm, apply2, ha, hb])
  | fma32 a b d =>
    simp only [view, Option.some.injEq] at hv
    subst hv
    cases hm : c.mode <;> simp only [hm, reduceCtorEq, or_self, or_true, true_or, not_false_eq_true, not_true_eq_false, forall_true_left, false_implies] at h1 h2 ⊢ <;>
    first
    | (subst h2; simp [exec, ternaryOp, hm, apply3])
    | (rcases h1 with _ | ⟨ha, h1⟩
       rcases h1 with _ | ⟨hb, h1⟩
       rcases h1 with _ | ⟨hd, h1⟩
       rcases h1 with _ | _
       simp [exec, ternaryOp, hm, apply3, ha, hb, hd])
  | fma64 a b d =>
    simp only [view, Option.some.injEq] at hv
    subst hv
    cases hm : c.mode <;> simp only [hm, reduceCtorEq, or_self, or_true, true_or, not_false_eq_true, not_true_eq_false, forall_true_left, false_implies] at h1 h2 ⊢ <;>
    first
    | (subst h2; simp [exec, ternaryOp, hm, apply3])
    | (rcases h1 with _ | ⟨ha, h1⟩
       rcases h1 with _ | ⟨hb, h1⟩
       rcases h1 with _ | ⟨hd, h1⟩
       rcases h1 with _ | _
       simp [exec, ternaryOp, hm, apply3, ha, hb, hd])

/-- The exact result of a call, cast included. -/
def exact (hw32 hw64 : HW) : Call → Bits
  | .bin32 op a b => hw32.op2 op a b
  | .bin64 op a b => hw64.op2 op a b
  | .fma32 a b c => hw32.fma a b c
  | .fma64 a b c => hw64.fma a b c
  | .cast a => fconv b64 b32 a

/-- C09: in ieee mode every operation, the cast included, is the exact one. -/
theorem C09_ieee_exact (sem : ShiftSem) (hw32 hw64 : HW) (c : Cfg) (k : Call) (hm : c.mode = .ieee) :
    exec sem hw32 hw64 c k = .ok (exact hw32 hw64 k) := by
  cases k <;> simp [exec, binaryOp, ternaryOp, castOp, hm, exact]

/-- C09, definedness: within the configuration limits (C10), in relative error mode and
with at least one bit less than the full mantissa (or with wrapping shifts), every
arithmetic call on well-formed data returns well-formed data. -/
theorem C09_defined (sem : ShiftSem) (hw32 hw64 : HW) (c : Cfg) (hc : InLimits c)
    (hrel : c.absErr = false) (hp : sem = .wrap ∨ (c.prec32 < 23 ∧ c.prec64 < 52))
    (k : Call) (v : View) (hv : view hw32 hw64 c k = some v)
    (hargs : ∀ x ∈ v.args, x.WF v.F) (hhw : ∀ l, (∀ x ∈ l, x.WF v.F) → (v.hw l).WF v.F) :
    ∃ y, exec sem hw32 hw64 c k = .ok y ∧ y.WF v.F := by
  have hF : IsC v.F v.w ∧ 2 ≤ v.range.toNat ∧ v.range.toNat ≤ v.F.ew ∧
      (∃ p : ℕ, v.prec = p ∧ 1 ≤ p ∧ p ≤ v.F.mw ∧ (p < v.F.mw ∨ sem = .wrap)) := by
    obtain ⟨h1, h2, h3, h4⟩ := hc
    have e1 : b32.ew = 8 := rfl
    have e2 : b64.ew = 11 := rfl
    have e3 : b32.mw = 23 := rfl
    have e4 : b64.mw = 52 := rfl
    cases k with
    | cast x => exact absurd hv (by simp [view])
    | bin32 op a b =>
      simp only [view, Option.some.injEq] at hv; subst hv
      refine ⟨Or.inl ⟨rfl, rfl⟩, by simp only; omega, by simp only; omega, c.prec32.toNat, by simp only; omega,
        by omega, by simp only; omega, ?_⟩
      rcases hp with hp | hp
      · exact Or.inr hp
      · left; simp only; omega
    | bin64 op a b =>
      simp only [view, Option.some.injEq] at hv; subst hv
      refine ⟨Or.inr ⟨rfl, rfl⟩, by simp only; omega, by simp only; omega, c.prec64.toNat, by simp only; omega,
        by omega, by simp only; omega, ?_⟩
      rcases hp with hp | hp
      · exact Or.inr hp
      · left; simp only; omega
    | fma32 a b d =>
      simp only [view, Option.some.injEq] at hv; subst hv
      refine ⟨Or.inl ⟨rfl, rfl⟩, by simp only; omega, by simp only; omega, c.prec32.toNat, by simp only; omega,
        by omega, by simp only; omega, ?_⟩
      rcases hp with hp | hp
      · exact Or.inr hp
      · left; simp only; omega
    | fma64 a b d =>
      simp only [view, Option.some.injEq] at hv; subst hv
      refine ⟨Or.inr ⟨rfl, rfl⟩, by simp only; omega, by simp only; omega, c.prec64.toNat, by simp only; omega,
        by omega, by simp only; omega, ?_⟩
      rcases hp with hp | hp
      · exact Or.inr hp
      · left; simp only; omega
  obtain ⟨hIs, hr, hr2, p, hpe, hp1, hp2, hp3⟩ := hF
  have hround : ∀ (x : Bits) (inp : Bool), x.WF v.F →
      ∃ y, roundBinary sem v.F v.w x inp c.ctx v.range.toNat v.prec = .ok y ∧ y.WF v.F := by
    intro x inp hx
    rw [hpe]
    exact C03_result_defined sem v.F v.w hIs x inp c.ctx v.range.toNat p hrel hr hr2 hp1 hp2 hp3 hx
  have hlist : ∀ l : List Bits, (∀ x ∈ l, x.WF v.F) → ∃ l', List.Forall₂
      (fun x x' => roundBinary sem v.F v.w x true c.ctx v.range.toNat v.prec = .ok x') l l' ∧ ∀ x ∈ l', x.WF v.F := by
    intro l
    induction l with
    | nil => intro _; exact ⟨[], .nil, by simp⟩
    | cons a l ih =>
      intro h
      obtain ⟨l', hl', hw'⟩ := ih (fun x hx => h x (List.mem_cons_of_mem _ hx))
      obtain ⟨a', ha', hwa⟩ := hround a true (h a List.mem_cons_self)
      exact ⟨a' :: l', .cons ha' hl', by
        intro x hx
        rcases List.mem_cons.1 hx with rfl | hx
        exacts [hwa, hw' x hx]⟩
  obtain ⟨used, hused, huw⟩ : ∃ used, ((RoundsOperands c.mode → AllRounded sem c v used) ∧
      (¬ RoundsOperands c.mode → used = v.args)) ∧ ∀ x ∈ used, x.WF v.F := by
    by_cases hm : RoundsOperands c.mode
    · obtain ⟨l', hl', hw'⟩ := hlist v.args hargs
      exact ⟨l', ⟨fun _ => hl', fun h => absurd hm h⟩, hw'⟩
    · exact ⟨v.args, ⟨fun h => absurd h hm, fun _ => rfl⟩, hargs⟩
  obtain ⟨h1, h2⟩ := C09_modes sem hw32 hw64 c k v hv used hused
  by_cases hm : RoundsResult c.mode
  · rw [h2 hm]; exact hround _ _ (hhw _ huw)
  · exact ⟨_, h1 hm, hhw _ huw⟩

/-- C09 with C07: with the default formats and no flush every mode returns the
hardware result (wrapping shifts). -/
theorem C09_default_transparent (hw32 hw64 : HW) (c : Cfg)
    (hdef : c.fmt = init.fmt) (hrel : c.absErr = false) (hd : c.daz = false) (hf : c.ftz = false)
    (k : Call) (v : View) (hv : view hw32 hw64 c k = some v)
    (hargs : ∀ x ∈ v.args, x.WF v.F) (hhw : ∀ l, (∀ x ∈ l, x.WF v.F) → (v.hw l).WF v.F) :
    exec .wrap hw32 hw64 c k = .ok (v.hw v.args) := by
  have hall : ∀ (x : Bits) (inp : Bool), x.WF v.F →
      roundBinary .wrap v.F v.w x inp c.ctx v.range.toNat v.prec = .ok x := by
    intro x inp hx
    simp only [Cfg.fmt, init, Prod.mk.injEq] at hdef
    obtain ⟨e1, e2, e3, e4⟩ := hdef
    have hfl : ((c.ctx.daz && inp) || (c.ctx.ftz && !inp)) = false := by
      simp [Cfg.ctx, hd, hf]
    cases k with
    | cast x => exact absurd hv (by simp [view])
    | bin32 op a b =>
      simp only [view, Option.some.injEq] at hv; subst hv; simp only [e1, e2]
      exact C07_transparent_partial b32 32 (Or.inl ⟨rfl, rfl⟩) x inp c.ctx hrel hfl hx
    | bin64 op a b =>
      simp only [view, Option.some.injEq] at hv; subst hv; simp only [e3, e4]
      exact C07_transparent_partial b64 64 (Or.inr ⟨rfl, rfl⟩) x inp c.ctx hrel hfl hx
    | fma32 a b d =>
      simp only [view, Option.some.injEq] at hv; subst hv; simp only [e1, e2]
      exact C07_transparent_partial b32 32 (Or.inl ⟨rfl, rfl⟩) x inp c.ctx hrel hfl hx
    | fma64 a b d =>
      simp only [view, Option.some.injEq] at hv; subst hv; simp only [e3, e4]
      exact C07_transparent_partial b64 64 (Or.inr ⟨rfl, rfl⟩) x inp c.ctx hrel hfl hx
  have hused : (RoundsOperands c.mode → AllRounded .wrap c v v.args) ∧
      (¬ RoundsOperands c.mode → v.args = v.args) := by
    refine ⟨fun _ => ?_, fun _ => rfl⟩
    unfold AllRounded
    rw [List.forall₂_same]
    exact fun x hx => hall x true (hargs x hx)
  obtain ⟨h1, h2⟩ := C09_modes .wrap hw32 hw64 c k v hv v.args hused
  by_cases hm : RoundsResult c.mode
  · rw [h2 hm]; exact hall _ _ (hhw _ hargs)
  · exact h1 hm

/-- A hardware that adds, and projects for everything else. -/
def exHW (F : Fmt) : HW := ⟨fun _ a b => fadd F a b, fun a b _ => fadd F a b⟩

/-- `full` mode, half precision: the operand `1 + 2^-20` is rounded to `1`, the sum
`1 + 1.5` is not changed. -/
example : exec .strict (exHW b32) (exHW b64) { init with prec32 := 10, range32 := 5, mode := .full }
    (.bin32 .add ⟨false, 127, 8⟩ ⟨false, 127, 0x400000⟩) = .ok ⟨false, 128, 0x200000⟩ := by decide +kernel
example : exec .strict (exHW b32) (exHW b64) { init with prec32 := 10, range32 := 5, mode := .ieee }
    (.bin32 .add ⟨false, 127, 8⟩ ⟨false, 127, 0x400000⟩) = .ok ⟨false, 128, 0x200004⟩ := by decide +kernel

/-! ## C50: the cast rounds once -/

/-- Converting an element of a `float`-like format from `double` to `float` is exact. -/
theorem fconv_exact (y : Bits) (hy : y.WF b64) (hf : y.Fin b64)
    (hin : Spec.InFmt 23 (-126) (y.val b64)) (hmax : |y.val b64| < 2 ^ (128 : ℤ)) :
    (fconv b64 b32 y).WF b32 ∧ (fconv b64 b32 y).Fin b32 ∧ (fconv b64 b32 y).sign = y.sign ∧
    (fconv b64 b32 y).val b32 = y.val b64 := by
  obtain ⟨hmw', hew', hbias', hinf', huexp'⟩ := b64_facts
  obtain ⟨hmw3, hew3, hbias3, hinf3, huexp3⟩ := b32_facts
  have hfin' : y.exp < b64.expInf := by
    have := hy.1; unfold Bits.Fin Fmt.expInf at *; omega
  by_cases h0 : y.mag b64 = 0
  · have hz := (mag_eq_zero b64 y).1 h0
    have : y = zeroBits y.sign := by
      obtain ⟨s, e, m⟩ := y
      obtain ⟨h1, h2⟩ := hz
      simp only at h1 h2
      rw [h1, h2]; rfl
    rw [this, fconv_zero b64 b32 (by rw [hew']; omega) (by rw [hew3]; omega), val_zero, val_zero]
    exact ⟨zero_wf _ _, by unfold Bits.Fin zeroBits; simp only; omega, rfl, rfl⟩
  obtain ⟨D, hD⟩ : ∃ D : ℕ, D = 925 := ⟨_, rfl⟩
  obtain ⟨m, e, hm, he, hv⟩ := hin
  have hvm : |y.val b64| = (m.natAbs : ℚ) * 2 ^ e := by
    rw [hv, abs_mul, abs_of_pos (by positivity : (0 : ℚ) < 2 ^ e)]
    congr 1
    rw [Nat.cast_natAbs]; push_cast; rfl
  obtain ⟨E, hE⟩ : ∃ E : ℕ, (E : ℤ) = e + 149 := ⟨(e + 149).toNat, by push_cast at he; omega⟩
  have hmag : y.mag b64 = m.natAbs * 2 ^ E * 2 ^ D := by
    rw [abs_val, huexp'] at hvm
    have e1 : (2 : ℚ) ^ e = 2 ^ (E + D) * 2 ^ (-1074 : ℤ) :=
      two_zpow_split e (-1074) (E + D) (by push_cast; omega)
    rw [e1, ← mul_assoc] at hvm
    have h2 : (0 : ℚ) < 2 ^ (-1074 : ℤ) := by positivity
    have := mul_right_cancel₀ h2.ne' hvm
    rw [pow_add, ← mul_assoc] at this
    exact_mod_cast this
  have hm0 : m.natAbs ≠ 0 := by
    intro h; rw [h] at hmag; simp at hmag; exact h0 hmag
  have hmlt : m.natAbs < 2 ^ (b32.mw + 1) := by
    rw [hmw3]
    have : (m.natAbs : ℤ) < 2 ^ (23 + 1) := by rw [Int.natCast_natAbs]; exact hm
    exact_mod_cast this
  have hfit : m.natAbs * 2 ^ E < 2 ^ (b32.mw + 1) * 2 ^ (b32.expInf - 2) := by
    rw [hmw3, hinf3]
    rw [hvm, two_zpow_split e (-149) E (by omega), two_zpow_split 128 (-149) 277 (by norm_num), ← mul_assoc] at hmax
    have h2 : (0 : ℚ) < 2 ^ (-149 : ℤ) := by positivity
    have := lt_of_mul_lt_mul_right hmax h2.le
    have h3 : m.natAbs * 2 ^ E < 2 ^ 277 := by exact_mod_cast this
    rw [← pow_add]
    generalize hK : 23 + 1 + (255 - 2) = K
    have hK' : (277 : ℕ) = K := by omega
    rw [← hK']
    exact h3
  have hcv : fconv b64 b32 y = encode b32 y.sign (m.natAbs * 2 ^ E) 0 :=
    fconv_narrow b64 b32 y D (m.natAbs * 2 ^ E) (by rw [huexp3, huexp', hD]; norm_num) hfin'
      (by positivity) hmag
  obtain ⟨h1, h2, h3, h4⟩ := encode_repr b32 (by rw [hew3]; omega) y.sign m.natAbs E hm0 hmlt hfit
  rw [hcv]
  refine ⟨h2, h3.ne, h1, ?_⟩
  rw [val_eq_mag, val_eq_mag, h1, h4, hmag, huexp3, huexp', two_zpow_split (-149) (-1074) D (by omega)]
  push_cast
  generalize (2 : ℚ) ^ (-1074 : ℤ) = u
  ring

/-- C50: in every mode but `ieee` the cast rounds its operand once, to the format
configured for `float` (`ob`, `full`) or to the narrower of the `double` format and
`float` (`ib`); the conversion to `float` that follows changes no value. -/
theorem C50_cast_single_rounding (sem : ShiftSem) (c : Cfg) (hc : InLimits c) (hrel : c.absErr = false)
    (hm : c.mode ≠ .ieee) (a : Bits) (ha : a.WF b64) (hfin : a.Fin b64)
    (r p : Int) (inp : Bool)
    (hfmt : (r, p, inp) = if c.mode = .ib then (min c.range64 8, min c.prec64 23, true)
      else (c.range32, c.prec32, false)) :
    ∃ y b, round64 sem a inp c.ctx r.toNat p = .ok y ∧ castOp sem c a = .ok b ∧ b.WF b32 ∧
      b.sign = y.sign ∧
      (y.Fin b64 → b.Fin b32 ∧ b.val b32 = y.val b64) ∧
      (¬ y.Fin b64 → y = infBits b64 a.sign ∧ b = infBits b32 a.sign) := by
  obtain ⟨hmw', hew', hbias', hinf', huexp'⟩ := b64_facts
  obtain ⟨hmw3, hew3, hbias3, hinf3, huexp3⟩ := b32_facts
  obtain ⟨l1, l2, l3, l4⟩ := hc
  have hlim : 1 ≤ p ∧ p ≤ 23 ∧ 2 ≤ r ∧ r ≤ 8 := by
    split_ifs at hfmt <;> simp only [Prod.mk.injEq] at hfmt <;> omega
  obtain ⟨q, hq⟩ : ∃ q : ℕ, p = q := ⟨p.toNat, by omega⟩
  obtain ⟨n, hn⟩ : ∃ n : ℕ, r = n := ⟨r.toNat, by omega⟩
  subst hq; subst hn
  have hn8 : n ≤ 8 := by omega
  obtain ⟨y, hy, hf⟩ := roundBinary_all sem b64 64 (Or.inr ⟨rfl, rfl⟩) a inp c.ctx n q hrel (by omega)
    (by omega) (by omega) (by omega) (Or.inl (by omega)) ha hfin
  have hcast : castOp sem c a = .ok (fconv b64 b32 y) := by
    unfold castOp
    have hy' : round64 sem a inp c.ctx (n : Int).toNat (q : Int) = .ok y := by simpa using hy
    cases hmode : c.mode with
    | ieee => exact absurd hmode hm
    | ob => rw [hmode] at hfmt; simp only [reduceCtorEq, if_false, Prod.mk.injEq] at hfmt
            obtain ⟨e1, e2, e3⟩ := hfmt
            simp only [← e1, ← e2]; rw [← e3, hy']; rfl
    | full => rw [hmode] at hfmt; simp only [reduceCtorEq, if_false, Prod.mk.injEq] at hfmt
              obtain ⟨e1, e2, e3⟩ := hfmt
              simp only [← e1, ← e2]; rw [← e3, hy']; rfl
    | ib => rw [hmode] at hfmt; simp only [if_true, Prod.mk.injEq] at hfmt
            obtain ⟨e1, e2, e3⟩ := hfmt
            simp only [← e1, ← e2]; rw [← e3, hy']; rfl
  refine ⟨y, fconv b64 b32 y, by simpa using hy, hcast, ?_⟩
  by_cases hyf : y.Fin b64
  · obtain ⟨hin, hmax⟩ := C03_result_in_format sem b64 64 (Or.inr ⟨rfl, rfl⟩) a y inp c.ctx n q hrel (by omega)
      (by omega) (by omega) (by omega) (Or.inl (by omega)) ha hfin hy hyf
    have hemax : Spec.emax n ≤ 127 := by
      unfold Spec.emax
      have : (2 : ℤ) ^ (n - 1) ≤ 2 ^ 7 := pow_le_pow_right₀ (by norm_num) (by omega)
      norm_num at this
      omega
    have hemin : -126 ≤ Spec.emin n := by unfold Spec.emin; omega
    have hin' : Spec.InFmt 23 (-126) (y.val b64) := by
      obtain ⟨m, e, h1, h2, h3⟩ := hin
      refine ⟨m, e, lt_of_lt_of_le h1 (pow_le_pow_right₀ (by norm_num) (by omega)), ?_, h3⟩
      push_cast; omega
    have hmax' : |y.val b64| < 2 ^ (128 : ℤ) :=
      lt_of_lt_of_le hmax (zpow_le_zpow_right₀ (by norm_num) (by omega))
    obtain ⟨h1, h2, h3, h4⟩ := fconv_exact y hf.wf hyf hin' hmax'
    exact ⟨h1, h3, fun _ => ⟨h2, h4⟩, fun h => absurd hyf h⟩
  · have hinfy : y = infBits b64 a.sign := by
      apply hf.inf
      by_contra hlt
      exact hyf (hf.fin (not_le.1 hlt)).1
    have hcv : fconv b64 b32 y = infBits b32 a.sign := by
      rw [hinfy]; cases a.sign <;> decide
    rw [hcv, hinfy]
    exact ⟨by cases a.sign <;> decide, rfl, fun h => absurd rfl h, fun _ => ⟨rfl, rfl⟩⟩

/-- `1 + 2^-11 + 2^-30`: rounding to half precision first to `float` and then to ten
bits would give `1`; the single rounding gives `1 + 2^-10`. -/
example : castOp .strict { init with prec32 := 10, range32 := 5 }
    ⟨false, 1023, 2 ^ 41 + 2 ^ 22⟩ = .ok ⟨false, 127, 2 ^ 13⟩ := by decide +kernel

end Verif.Vprec.Ops
