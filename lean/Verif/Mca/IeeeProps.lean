import Verif.Mca.ModeProps
import Verif.Float.Conv
import Verif.Float.Div

/-!
# Property C57: MCA in ieee mode computes the IEEE-754 results

The operations are computed in the wide type and converted back.  For sums, differences,
products, quotients and casts the two roundings amount to one; for the fused multiply-add they do
not.  In the wide type the operation itself is the hardware's: `PERFORM_BIN_OP`
(interflop_mca.c:412-428, interflop_mca_int.c:356-372), `PERFORM_UNARY_OP`
(interflop_mca.c:401-408), `PERFORM_FMA` (392-396, interflop_fma.c:16-30).
-/

namespace Verif.Mca
open Verif Verif.Fp

/-- `PERFORM_BIN_OP` with `+`, `-`, `*` and `/` in the wide type. -/
def wideAdd (G : Fmt) (l : List Bits) : Bits := fadd G (l.getD 0 (zeroBits false)) (l.getD 1 (zeroBits false))
def wideSub (G : Fmt) (l : List Bits) : Bits :=
  fadd G (l.getD 0 (zeroBits false)) (fneg (l.getD 1 (zeroBits false)))
def wideMul (G : Fmt) (l : List Bits) : Bits := fmul G (l.getD 0 (zeroBits false)) (l.getD 1 (zeroBits false))
def wideDiv (G : Fmt) (l : List Bits) : Bits := fdiv G (l.getD 0 (zeroBits false)) (l.getD 1 (zeroBits false))
/-- `PERFORM_FMA` in the wide type. -/
def wideFma (G : Fmt) (l : List Bits) : Bits :=
  ffma G (l.getD 0 (zeroBits false)) (l.getD 1 (zeroBits false)) (l.getD 2 (zeroBits false))

variable {σ : Type} (noise : Fmt → Ctx → Int → σ → Bits → Outcome (Bits × σ)) (g : Gen σ)

theorem wider_ty (T : Ty) : ∃ D, Wider T.fmt T.wide D := by
  cases T
  · exact ⟨_, wider32⟩
  · exact ⟨_, wider64⟩

/-- **C57**: in ieee mode, a sum of two `float`s or `double`s is the IEEE-754 sum, for
all operands including zeros, infinities and NaNs, and no random number is drawn. -/
theorem C57_add (T : Ty) (c : Ctx) (hm : c.mode = .ieee) (hd : c.daz = false) (hf : c.ftz = false) (s : σ)
    (a b : Bits) (ha : a.WF T.fmt) (hb : b.WF T.fmt) :
    opN T (inexact noise g T.wide c (c.prec T)) (wideAdd T.wide) c s [a, b] = .ok (fadd T.fmt a b, s) := by
  obtain ⟨D, h⟩ := wider_ty T
  rw [C22_ieee_op noise g T _ c s _ hm hd hf]
  simp only [wideAdd, List.map_cons, List.map_nil, List.getD_cons_zero, List.getD_cons_succ]
  rw [fadd_double h a b ha hb]

theorem C57_sub (T : Ty) (c : Ctx) (hm : c.mode = .ieee) (hd : c.daz = false) (hf : c.ftz = false) (s : σ)
    (a b : Bits) (ha : a.WF T.fmt) (hb : b.WF T.fmt) :
    opN T (inexact noise g T.wide c (c.prec T)) (wideSub T.wide) c s [a, b] =
      .ok (fadd T.fmt a (fneg b), s) := by
  obtain ⟨D, h⟩ := wider_ty T
  rw [C22_ieee_op noise g T _ c s _ hm hd hf]
  simp only [wideSub, List.map_cons, List.map_nil, List.getD_cons_zero, List.getD_cons_succ]
  rw [fsub_double h a b ha hb]

theorem C57_mul (T : Ty) (c : Ctx) (hm : c.mode = .ieee) (hd : c.daz = false) (hf : c.ftz = false) (s : σ)
    (a b : Bits) (ha : a.WF T.fmt) (hb : b.WF T.fmt) :
    opN T (inexact noise g T.wide c (c.prec T)) (wideMul T.wide) c s [a, b] = .ok (fmul T.fmt a b, s) := by
  rw [C22_ieee_op noise g T _ c s _ hm hd hf]
  simp only [wideMul, List.map_cons, List.map_nil, List.getD_cons_zero, List.getD_cons_succ]
  cases T
  · rw [show Ty.wide .f32 = b64 from rfl, show Ty.fmt .f32 = b32 from rfl, fmul_double32 a b ha hb]
  · rw [show Ty.wide .f64 = b128 from rfl, show Ty.fmt .f64 = b64 from rfl, fmul_double64 a b ha hb]

/-- **C57**: a quotient, including by zero and of zeros, infinities and NaNs. -/
theorem C57_div (T : Ty) (c : Ctx) (hm : c.mode = .ieee) (hd : c.daz = false) (hf : c.ftz = false) (s : σ)
    (a b : Bits) (ha : a.WF T.fmt) (hb : b.WF T.fmt) :
    opN T (inexact noise g T.wide c (c.prec T)) (wideDiv T.wide) c s [a, b] = .ok (fdiv T.fmt a b, s) := by
  rw [C22_ieee_op noise g T _ c s _ hm hd hf]
  simp only [wideDiv, List.map_cons, List.map_nil, List.getD_cons_zero, List.getD_cons_succ]
  cases T
  · rw [show Ty.wide .f32 = b64 from rfl, show Ty.fmt .f32 = b32 from rfl, fdiv_double32 a b ha hb]
  · rw [show Ty.wide .f64 = b128 from rfl, show Ty.fmt .f64 = b64 from rfl, fdiv_double64 a b ha hb]

/-- `1/3`, a subnormal tie (`-3 * 2^-149 / 2`, to even) and `1` over `-0`, through `double`. -/
example : fconv b64 b32 (wideDiv b64 [fconv b32 b64 ⟨false, 127, 0⟩, fconv b32 b64 ⟨false, 128, 2 ^ 22⟩]) =
      ⟨false, 125, 0x2AAAAB⟩ ∧
    fconv b64 b32 (wideDiv b64 [fconv b32 b64 ⟨true, 0, 3⟩, fconv b32 b64 ⟨false, 128, 0⟩]) = ⟨true, 0, 2⟩ ∧
    fconv b64 b32 (wideDiv b64 [fconv b32 b64 ⟨false, 127, 0⟩, fconv b32 b64 ⟨true, 0, 0⟩]) = ⟨true, 255, 0⟩ := by
  decide +kernel

theorem wider_32_128 : Wider b32 b128 16345 := ⟨by decide, by decide, by decide, by decide, by decide⟩

/-- What the cast computes before a perturbation of its result. -/
theorem cast_chain (a : Bits) (ha : a.WF b64) :
    fconv b128 b32 (fconv b64 b128 a) = fconv b64 b32 a ∧
    fconv b64 b32 (fconv b128 b64 (fconv b32 b128 (fconv b64 b32 a))) = fconv b64 b32 a := by
  have hy := fconv_wf b64 b32 (by decide) a
  refine ⟨fconv_trans wider64 b32 (by decide) a ha, ?_⟩
  rw [fconv_trans wider_32_128 b64 (by decide) _ hy, fconv_round_trip wider32 (by decide)]

/-- **C57**: the cast of a `double` to `float` in ieee mode is the IEEE-754 conversion. -/
theorem C57_cast (c : Ctx) (hm : c.mode = .ieee) (hd : c.daz = false) (hf : c.ftz = false) (s : σ)
    (a : Bits) (ha : a.WF b64) :
    castOp (inexact noise g b128 c (c.prec .f64)) c s a = .ok (fconv b64 b32 a, s) := by
  obtain ⟨h1, h2⟩ := cast_chain a ha
  unfold castOp
  rw [show b128 = Ty.wide .f64 from rfl, C22_ieee_op noise g .f64 _ c s _ hm hd hf]
  simp only [Outcome.bind_ok, List.map_cons, List.map_nil, List.headD_cons, Ty.wide, Ty.fmt]
  rw [h1, h2]

/-- **C22** for casts: in rr mode, at a binary64 precision of at least 24, a cast is the
IEEE-754 conversion: its result, already a `float`, is never perturbed. -/
theorem C22_cast_rr (c : Ctx) (hm : c.mode = .rr) (hd : c.daz = false) (hf : c.ftz = false)
    (t : Nat) (ht : 24 ≤ t) (hp : c.prec64 = t) (s : σ) (a : Bits) (ha : a.WF b64) :
    castOp (inexact noise g b128 c (c.prec .f64)) c s a = .ok (fconv b64 b32 a, s) := by
  obtain ⟨h1, h2⟩ := cast_chain a ha
  have hy := fconv_wf b64 b32 (by decide) a
  have hx : inexact noise g b128 c (c.prec .f64) s (fconv b32 b128 (fconv b64 b32 a)) =
      .ok (fconv b32 b128 (fconv b64 b32 a), s) := by
    generalize fconv b64 b32 a = y at hy
    by_cases hsp : Special b128 (fconv b32 b128 y)
    · exact C22_special noise g b128 (by decide) c _ s _ hsp
    · obtain ⟨z1, z2⟩ := not_special b128 _ hsp
      obtain ⟨k1, k2, k3, k4⟩ := widen_class wider_32_128 y hy
      have yf : y.Fin b32 := by
        rcases kinds b32 y with n | i | f
        · exact absurd (k2.2 n) (fin_not z1).1
        · exact absurd (k3.2 i) (fin_not z1).2
        · exact f
      have y0 : ¬ y.isZero := fun h => z2 ((widen_zero wider_32_128 y hy).2 h)
      have e := fconv_trans wider32 b128 (by decide) y hy
      obtain ⟨q1, q2, q3, q4⟩ := widen_spec wider32 y hy (fin_lt hy yf)
      obtain ⟨n1, n2, n3, n4, n5⟩ := widened_normal .f64 (fconv b32 b64 y) q2
        (by unfold Bits.Fin; simp only [Ty.fmt]; omega)
        (fun h => y0 ((widen_zero wider32 y hy).1 h))
      obtain ⟨-, -, -, -, m5⟩ := widened_normal .f32 y hy yf y0
      simp only [Ty.wide, Ty.fmt] at n1 n2 n5 m5
      rw [e] at n1 n2 n5
      have := C22_rr_exact noise g .f64 c hm t (by omega) s (fconv b32 b128 y) n1 (by
        show (fconv b32 b128 y).exp ≠ 0; omega) ?_
      · rw [show c.prec .f64 = t from hp]; exact this
      · show BitsAtMost b128 t _
        unfold BitsAtMost
        rw [n5, m5, abs_val]
        refine ⟨y.sig b32, y.lsb b32, ?_, rfl⟩
        exact lt_of_lt_of_le (sig_lt b32 y hy) (Nat.pow_le_pow_right (by norm_num) ht)
  unfold castOp opN
  simp only [hm, hd, hf, Bool.false_eq_true, if_false, List.map_cons, List.map_nil, Ty.wide, Ty.fmt,
    reduceCtorEq, or_self, or_false, if_true, Outcome.bind_ok, List.headD_cons]
  rw [h1, hx]
  simp only [Outcome.bind_ok]
  rw [h2]

/-- **C57 fails for the fused multiply-add**: `fmaf(1+2^-12, 1+2^-12, 2^-100)` is
`1 + 2^-11 + 2^-23`, just above a midpoint; the backends return `1 + 2^-11` in ieee mode,
because the first rounding, to `double`, loses the addend. -/
theorem C57_fma_wrong :
    ∃ a c : Bits, a.WF b32 ∧ c.WF b32 ∧
      ffma b32 a a c = ⟨false, 127, 2 ^ 12 + 1⟩ ∧
      ∀ (σ : Type) (noise : Fmt → Ctx → Int → σ → Bits → Outcome (Bits × σ)) (g : Gen σ) (ctx : Ctx) (s : σ),
        ctx.mode = .ieee → ctx.daz = false → ctx.ftz = false →
        opN .f32 (inexact noise g b64 ctx ctx.prec32) (wideFma b64) ctx s [a, a, c] =
          .ok (⟨false, 127, 2 ^ 12⟩, s) := by
  refine ⟨⟨false, 127, 2 ^ 11⟩, ⟨false, 27, 0⟩, by decide, by decide, by decide +kernel, ?_⟩
  intro σ noise g ctx s hm hd hf
  have := C22_ieee_op noise g .f32 (wideFma b64) ctx s
    [⟨false, 127, 2 ^ 11⟩, ⟨false, 127, 2 ^ 11⟩, ⟨false, 27, 0⟩] hm hd hf
  rw [show Ty.wide .f32 = b64 from rfl, show ctx.prec .f32 = ctx.prec32 from rfl] at this
  rw [this]
  have e : fconv b64 b32 (wideFma b64 (([⟨false, 127, 2 ^ 11⟩, ⟨false, 127, 2 ^ 11⟩, ⟨false, 27, 0⟩] :
      List Bits).map (fconv b32 b64))) = ⟨false, 127, 2 ^ 12⟩ := by decide +kernel
  exact congrArg (fun r => Outcome.ok (r, s)) e

/-- Non-trivial cases: `1 + 2^-24` (a tie), an overflow to infinity, `inf - inf`, and a
cast of `1/3`. -/
example : fadd b32 ⟨false, 127, 0⟩ ⟨false, 103, 0⟩ = ⟨false, 127, 0⟩ ∧
    fadd b32 ⟨false, 254, 0⟩ ⟨false, 254, 0⟩ = ⟨false, 255, 0⟩ ∧
    fadd b32 (infBits b32 false) (fneg (infBits b32 false)) = nanBits b32 ∧
    fmul b32 ⟨false, 1, 0⟩ ⟨true, 126, 1⟩ = ⟨true, 0, 2 ^ 22⟩ ∧
    fconv b64 b32 ⟨false, 1021, 0x5555555555555⟩ = ⟨false, 125, 0x2AAAAB⟩ := by
  decide +kernel

end Verif.Mca
