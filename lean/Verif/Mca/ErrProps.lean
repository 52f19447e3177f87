import Verif.Mca.FlushProps

/-!
# Properties C21 and C58: the size of the perturbation in each error mode

doc/02-Backends.md:240-252: `rel` errors are relative to the magnitude of the value,
`abs` errors are bounded by `2^ERR_EXPONENT` whatever the value, `all` does both.
-/

namespace Verif.Mca
open Verif Verif.Fp

variable {σ : Type}

theorem wide_ty (T : Ty) : Wide T.wide := by
  cases T
  · exact Or.inl rfl
  · exact Or.inr rfl

/-- A value below `2^(ex+1)` plus a noise below `2^(ex+1)`. -/
theorem sum_lt {x z : ℚ} {e : Int} (hx : |x| < 2 ^ e) (hz : |z| ≤ 2 ^ e) : |x + z| < 2 ^ (e + 1) := by
  have := abs_add_le x z
  rw [zpow_add_one₀ (by norm_num)]
  linarith

/-- The perturbation of a widened nonzero finite operand, in modes mca and pb with the
default sparsity. -/
theorem quadInexact_eq (g : Gen σ) (T : Ty) (c : Ctx) (hm : c.mode = .mca ∨ c.mode = .pb)
    (hs : 1 ≤ c.sparsity) (t : Nat) (hp : c.prec T = t) (ht : 1 ≤ t) (s : σ)
    (a : Bits) (ha : a.WF T.fmt) (hf : a.Fin T.fmt) (h0 : ¬ a.isZero) :
    quadInexact g T c s (fconv T.fmt T.wide a) = quadPerturb g T.wide c t s (fconv T.fmt T.wide a) := by
  obtain ⟨n1, n2, n3, -, -⟩ := widened_normal T a ha hf h0
  unfold quadInexact
  rw [hp]
  apply C22_perturbed (quadPerturb g) g T c hs t ht s _ n1
  · rintro (h | h | h)
    · have := h.1; omega
    · have := h.1; omega
    · have := h.1; omega
  · rcases hm with h | h
    · exact Or.inl h
    · exact Or.inr (Or.inl h)

/-- **C21** for the backend in its default error mode: a perturbed operand is, up to one
rounding in the wide type, `a + (draw - 1/2) * 2^(ex - (t-1))`, where `t` is the virtual
precision for the type of `a`, and one draw is consumed.  The draw `1/2` is excluded
(`C21_half_wrong`). -/
theorem C21_perturb_partial (g : Gen σ) (T : Ty) (c : Ctx) (hr : c.relErr = true) (hb : c.absErr = false)
    (hm : c.mode = .mca ∨ c.mode = .pb) (hs : 1 ≤ c.sparsity) (t : Nat) (hp : c.prec T = t) (ht : 1 ≤ t)
    (htm : t ≤ T.wide.mw) (s : σ) (hw : drawn (g.next s).1 ≠ 2 ^ 51)
    (a : Bits) (ha : a.WF T.fmt) (hf : a.Fin T.fmt) (ex : Int)
    (h1 : (2 : ℚ) ^ ex ≤ |a.val T.fmt|) (h2 : |a.val T.fmt| < 2 ^ (ex + 1)) :
    ∃ y, quadInexact g T c s (fconv T.fmt T.wide a) = .ok (y, (g.next s).2) ∧ y.Fin T.wide ∧
      |y.val T.wide - (a.val T.fmt + (rand01 (g.next s).1 - 1 / 2) * 2 ^ (ex - (t - 1)))| ≤
        2 ^ (ex - T.wide.mw) := by
  obtain ⟨hb', hew, hmw, hinf, hpow⟩ := wide_bias T.wide (wide_ty T)
  obtain ⟨n1, n2, n5, hex, hlo, hhi, h0⟩ := operand_exp T a ha hf ex h1 h2
  rw [quadInexact_eq g T c hm hs t hp ht s a ha hf h0]
  obtain ⟨q1, q2, q3, q4⟩ := C21_noise_partial T.wide (wide_ty T) (ex - (t - 1)) (g.next s).1 hw
    (by omega) (by omega)
  have hge : getExp T.wide (fconv T.fmt T.wide a) = ex := hex
  unfold quadPerturb
  simp only [hr, hb, if_true, Bool.false_eq_true, if_false, hge]
  have hxf : (fconv T.fmt T.wide a).Fin T.wide := by unfold Bits.Fin; omega
  have hsmall : |(quadNoise T.wide (ex - (t - 1)) (g.next s).1).val T.wide| ≤ 2 ^ (ex + 1) :=
    le_trans q4 (zpow_le_zpow_right₀ (by norm_num) (by omega))
  obtain ⟨r1, r2, r3, -⟩ := fadd_round T.wide hew _ _ hxf q2 (ex + 1 + 1)
    (sum_lt (by rw [n5]; exact h2) hsmall) (by omega)
  refine ⟨_, rfl, r2, ?_⟩
  rw [n5, q3] at r3
  rw [show ex + 1 + 1 - (T.wide.mw : Int) - 2 = ex - T.wide.mw by ring] at r3
  exact r3

/-- **C58**, `abs`: the operand becomes the wide number nearest to
`a + (draw - 1/2) * 2^e`, `e` being the option's exponent, whatever `a` and the virtual
precision; the error added is at most `2^(e-1)`. -/
theorem C58_abs_partial (g : Gen σ) (T : Ty) (c : Ctx) (hr : c.relErr = false) (hb : c.absErr = true)
    (hm : c.mode = .mca ∨ c.mode = .pb) (hs : 1 ≤ c.sparsity) (t : Nat) (hp : c.prec T = t) (ht : 1 ≤ t)
    (s : σ) (hw : drawn (g.next s).1 ≠ 2 ^ 51)
    (a : Bits) (ha : a.WF T.fmt) (hf : a.Fin T.fmt) (h0 : ¬ a.isZero)
    (he1 : 53 - (T.wide.bias : Int) ≤ c.absErrExp) (he2 : c.absErrExp ≤ T.wide.bias) :
    ∃ y e, quadInexact g T c s (fconv T.fmt T.wide a) = .ok (y, (g.next s).2) ∧ y.Fin T.wide ∧
      e = (rand01 (g.next s).1 - 1 / 2) * 2 ^ c.absErrExp ∧ |e| ≤ 2 ^ (c.absErrExp - 1) ∧
      ∀ z : Bits, z.WF T.wide →
        |y.val T.wide - (a.val T.fmt + e)| ≤ |z.val T.wide - (a.val T.fmt + e)| := by
  obtain ⟨hb', hew, hmw, hinf, hpow⟩ := wide_bias T.wide (wide_ty T)
  obtain ⟨n1, n2, n3, -, n5⟩ := widened_normal T a ha hf h0
  obtain ⟨q1, q2, q3, q4⟩ := C21_noise_partial T.wide (wide_ty T) c.absErrExp (g.next s).1 hw he1 (by omega)
  rw [quadInexact_eq g T c hm hs t hp ht s a ha hf h0]
  unfold quadPerturb
  simp only [hr, hb, if_true, Bool.false_eq_true, if_false]
  have hxf : (fconv T.fmt T.wide a).Fin T.wide := by unfold Bits.Fin; omega
  have hxs : |(fconv T.fmt T.wide a).val T.wide| < 2 ^ ((T.wide.bias : Int) - 1) := by
    rw [n5]
    have hu : (0 : ℚ) < 2 ^ T.fmt.uexp := zpow_pos (by norm_num) _
    have hsg : |sgn a.sign| = 1 := by unfold sgn; cases a.sign <;> simp
    rw [val_eq_mag, abs_mul, abs_mul, hsg, one_mul, abs_of_pos hu, abs_of_nonneg (by positivity)]
    have hm := mag_lt T.fmt (by cases T <;> decide) a ha (fin_lt ha hf)
    have hm' : (a.mag T.fmt : ℚ) < 2 ^ (T.fmt.mw + 1 + (T.fmt.expInf - 2)) := by
      rw [pow_add]; exact_mod_cast hm
    calc (a.mag T.fmt : ℚ) * 2 ^ T.fmt.uexp < 2 ^ (T.fmt.mw + 1 + (T.fmt.expInf - 2)) * 2 ^ T.fmt.uexp :=
          mul_lt_mul_of_pos_right hm' hu
      _ = 2 ^ (((T.fmt.mw + 1 + (T.fmt.expInf - 2) : ℕ) : ℤ) + T.fmt.uexp) := by
          rw [zpow_add₀ (by norm_num), zpow_natCast]
      _ ≤ _ := zpow_le_zpow_right₀ (by norm_num) (by cases T <;> decide)
  obtain ⟨r1, r2, -, r4⟩ := fadd_round T.wide hew _ _ hxf q2 ((T.wide.bias : Int) - 1 + 1)
    (sum_lt hxs (le_trans q4 (zpow_le_zpow_right₀ (by norm_num) (by omega)))) (by omega)
  rw [n5, q3] at r4
  rw [q3] at q4
  exact ⟨_, _, rfl, r2, rfl, q4, r4⟩

/-- **C58**, `all`: the relative perturbation, then the absolute one with the next
draw. -/
theorem C58_all (g : Gen σ) (F : Fmt) (c : Ctx) (vp : Int) (s : σ) (x : Bits) :
    quadPerturb g F { c with relErr := true, absErr := true } vp s x =
      quadPerturb g F { c with relErr := true, absErr := false } vp s x >>= fun (y, s) =>
      quadPerturb g F { c with relErr := false, absErr := true } vp s y := by
  unfold quadPerturb
  simp

/-- **C58 fails in mcaint**: it stores the error mode and the exponent and never reads
them. -/
theorem C58_mcaint_ignored (sem : ShiftSem) (g : Gen σ) (T : Ty) (c : Ctx) (r b : Bool) (e : Int) :
    intInexact sem g T { c with relErr := r, absErr := b, absErrExp := e } = intInexact sem g T c := rfl

/-- **C58**: in absolute mode a value far below the threshold is not excepted, and zero
is: `2^-100` becomes `-2^-10 + 2^-100` rounded, while `0` stays `0`. -/
example :
    quadInexact (σ := Unit) ⟨fun _ => (0, ())⟩ .f32
      { init with relErr := false, absErr := true, absErrExp := -9 } () ⟨false, 923, 0⟩ =
      .ok (⟨true, 1013, 0⟩, ()) ∧
    quadInexact (σ := Unit) ⟨fun _ => (0, ())⟩ .f32
      { init with relErr := false, absErr := true, absErrExp := -9 } () ⟨false, 0, 0⟩ =
      .ok (⟨false, 0, 0⟩, ()) := by
  decide +kernel

end Verif.Mca
