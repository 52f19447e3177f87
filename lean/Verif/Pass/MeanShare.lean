import Verif.Pass.MeanProps
import Mathlib.Algebra.BigOperators.Fin
import Mathlib.Data.Fin.Tuple.Basic
import Mathlib.Logic.Equiv.Fin.Basic

/-!
# Property C114: what the average is, and values that are used twice

The average of `C114_partial` is the sum over all choices of words divided by their number.  The property does not hold for
programs that use the result of an operation twice.
-/

namespace Verif.Pass.Mean
open Verif Verif.Fp Verif.Mca Verif.Pass

/-! ## The average -/

theorem avg_fin (f : BitVec 64 → ℚ) : avg f = (∑ i : Fin (2 ^ 64), f (BitVec.ofFin i)) / 2 ^ 64 := by
  have key : ∀ (m : Nat) (q : ℚ) (h h' : Fin m → ℚ), (∀ i, h i = h' i) → (∑ i, h i) / q = (∑ i, h' i) / q :=
    fun m q h h' e => by rw [Finset.sum_congr rfl fun i _ => e i]
  unfold avg
  rw [Finset.sum_range]
  refine key _ _ _ _ fun i => congrArg f ?_
  apply BitVec.eq_of_toNat_eq
  rw [BitVec.toNat_ofNat]
  exact Nat.mod_eq_of_lt i.2

/-- The average is the sum over all choices of `n` words, divided by the number of choices. -/
theorem average_eq (n : Nat) (f : List (BitVec 64) → ℚ) :
    average n f = (∑ v : Fin n → Fin (2 ^ 64), f (List.ofFn fun i => BitVec.ofFin (v i))) / (2 ^ 64) ^ n := by
  have key : ∀ (m : Nat) (g : Fin m → BitVec 64) (q : ℚ) (A : (BitVec 64 → ℚ) → ℚ) (_ : ∀ f, A f = (∑ i : Fin m, f (g i)) / q)
      (B : Nat → (List (BitVec 64) → ℚ) → ℚ) (_ : ∀ f, B 0 f = f []) (_ : ∀ n f, B (n + 1) f = A fun w => B n fun l => f (w :: l)),
      ∀ n f, B n f = (∑ v : Fin n → Fin m, f (List.ofFn fun i => g (v i))) / q ^ n := by
    intro m g q A hA B h0 h1 n
    induction n with
    | zero => intro f; rw [h0]; simp
    | succ n ih =>
      intro f
      rw [h1, hA]
      simp only [ih]
      rw [← Finset.sum_div, div_div, ← pow_succ]
      congr 1
      rw [← (Fin.consEquiv fun _ => Fin m).sum_comp, Fintype.sum_prod_type]
      refine Finset.sum_congr rfl fun i _ => Finset.sum_congr rfl fun v _ => congrArg f ?_
      rw [List.ofFn_succ]
      simp [Fin.consEquiv]
  exact key _ BitVec.ofFin _ avg avg_fin average (fun _ => rfl) (fun _ _ => rfl) n f

/-! ## A value used twice -/

/-- `2^-24` in single precision. -/
def tiny : Bits := ⟨false, 103, 0⟩

/-- One in single precision. -/
def one : Bits := ⟨false, 127, 0⟩

/-- `t = 1 + 2^-24; t * t`: two operations, and the result of the first is used twice. -/
def square (sem : ShiftSem) (l : List (BitVec 64)) : Outcome (Bits × List (BitVec 64)) :=
  opInt sem listGen .f32 rrCtx .add l one tiny >>= fun t => opInt sem listGen .f32 rrCtx .mul t.2 t.1 t.1

/-- No number is between 1 and the next one. -/
theorem gap (r : Bits) (wf : r.WF b32) : 0 ≤ (r.val b32 - 1) * (r.val b32 - (1 + 2 ^ (-23 : ℤ))) := by
  by_contra hc
  rw [not_le] at hc
  have h1 : 1 < r.val b32 := by
    by_contra h
    rw [not_lt] at h
    have : (0 : ℚ) < 2 ^ (-23 : ℤ) := zpow_pos (by norm_num) _
    nlinarith
  have h2 : r.val b32 < 1 + 2 ^ (-23 : ℤ) := by nlinarith
  have hs := sig_lt b32 r wf
  have hv : r.val b32 = sgn r.sign * (r.sig b32 : ℚ) * 2 ^ r.lsb b32 := rfl
  have hp : (0 : ℚ) < 2 ^ r.lsb b32 := zpow_pos (by norm_num) _
  have hsg : r.sign = false := by
    cases h : r.sign with
    | false => rfl
    | true =>
      rw [hv, h] at h1
      have : (0 : ℚ) ≤ (r.sig b32 : ℚ) * 2 ^ r.lsb b32 := by positivity
      norm_num [sgn] at h1
      linarith
  rw [hv, hsg] at h1 h2
  simp only [sgn, Bool.false_eq_true, if_false, one_mul] at h1 h2
  have hlsb : -23 ≤ r.lsb b32 := by
    by_contra h
    rw [not_le] at h
    have e : (2 : ℚ) ^ r.lsb b32 ≤ 2 ^ (-24 : ℤ) := zpow_le_zpow_right₀ (by norm_num) (by omega)
    have hs' : (r.sig b32 : ℚ) ≤ 2 ^ 24 := by exact_mod_cast hs.le
    have : (r.sig b32 : ℚ) * 2 ^ r.lsb b32 ≤ 2 ^ 24 * 2 ^ (-24 : ℤ) := by gcongr
    norm_num at this
    linarith
  obtain ⟨n, hn⟩ : ∃ n : ℕ, r.lsb b32 = n + -23 := ⟨(r.lsb b32 + 23).toNat, by omega⟩
  rw [hn, zpow_add₀ (by norm_num), zpow_natCast, ← mul_assoc] at h1 h2
  generalize hK : r.sig b32 * 2 ^ n = K
  have hK' : (r.sig b32 : ℚ) * 2 ^ n = K := by rw [← hK]; push_cast; ring
  rw [hK'] at h1 h2
  norm_num at h1 h2
  have k1 : (8388608 : ℚ) < K := by linarith
  have k2 : (K : ℚ) < 8388609 := by linarith
  have k1' : 8388608 < K := by exact_mod_cast k1
  have k2' : K < 8388609 := by exact_mod_cast k2
  omega

/-- **C114** does not hold when the result of an operation is used twice: the rounding errors of the two uses are the same, and
the mean of the square exceeds the square of the exact value by the variance.  The excess is more than what `C114_partial`
allows for two operations. -/
theorem C114_false (sem : ShiftSem) :
    (1 + 2 ^ (-24 : ℤ)) ^ 2 + 2 ^ (-49 : ℤ) ≤ average 2 (fun l => resVal b32 (square sem l)) ∧
    2 * 2 ^ (1 - (Mca.Ty.f32.wide.mw : ℤ)) * ((1 + 2 ^ (1 - (Mca.Ty.f32.fmt.mw : ℤ))) ^ 2 * (1 + 2 ^ (-24 : ℤ)) ^ 2) < (2 : ℚ) ^ (-49 : ℤ) := by
  refine ⟨?_, by norm_num [Mca.Ty.wide, Mca.Ty.fmt, b32, b64]⟩
  have v1 : one.val b32 = 1 := by norm_num [one, Bits.val, Bits.sig, Bits.lsb, sgn, b32, Fmt.bias]
  have v2 : tiny.val b32 = 2 ^ (-24 : ℤ) := by norm_num [tiny, Bits.val, Bits.sig, Bits.lsb, sgn, b32, Fmt.bias]
  have g : grow .f32 = 1 + 2 ^ (-22 : ℤ) := by norm_num [grow, Mca.Ty.fmt, b32]
  have me : meanErr .f32 = 2 ^ (-51 : ℤ) := by norm_num [meanErr, Mca.Ty.wide, b64]
  have b : ((Mca.Ty.f32.fmt.bias : ℤ)) = 127 := by decide
  have z : realOp .add (one.val b32) (tiny.val b32) = 1 + 2 ^ (-24 : ℤ) := by rw [v1, v2]; rfl
  obtain ⟨p, hp⟩ := op_draws sem .f32 rrCtx (rrCtx_random _) .add (by decide) one tiny (by decide) (by decide) (by decide) (by decide)
    (show InRange .f32 .add (realOp .add (one.val b32) (tiny.val b32)) from by
      rw [z]; refine ⟨?_, by simp⟩; rw [b]; norm_num)
  rw [show realOp .add (one.val Mca.Ty.f32.fmt) (tiny.val Mca.Ty.f32.fmt) = 1 + 2 ^ (-24 : ℤ) from z] at hp
  have near : ∀ r, p.Gives r → r.WF b32 ∧ r.Fin b32 ∧ 1 / 2 ≤ r.val b32 ∧ r.val b32 ≤ 1 + 2 ^ (-20 : ℤ) := by
    intro r hr
    obtain ⟨h1, h2, h3⟩ := hp.gives r hr
    rw [g] at h3
    rw [show r.val Mca.Ty.f32.fmt = r.val b32 from rfl] at h3
    have h4 := abs_le.1 h3
    refine ⟨h1, h2, ?_, ?_⟩
    · have := h4.1; norm_num at this ⊢; linarith
    · have := h4.2; norm_num at this ⊢; linarith
  have second : ∀ r, p.Gives r → ∃ q, OpDraws sem .f32 rrCtx .mul r r (r.val b32 * r.val b32) q := by
    intro r hr
    obtain ⟨h1, h2, h3, h4⟩ := near r hr
    refine op_draws sem .f32 rrCtx (rrCtx_random _) .mul (by decide) r r h1 h2 h1 h2 ⟨?_, fun _ => .inr ?_⟩
    · rw [b]
      show |r.val b32 * r.val b32| < _
      rw [abs_of_nonneg (mul_self_nonneg _)]
      norm_num at h4 ⊢
      nlinarith
    · rw [b]
      show _ ≤ |r.val b32 * r.val b32|
      rw [abs_of_nonneg (mul_self_nonneg _)]
      norm_num
      nlinarith
  classical
  obtain ⟨k, hk⟩ : ∃ k : Bits → Draws Bits, ∀ r, p.Gives r → OpDraws sem .f32 rrCtx .mul r r (r.val b32 * r.val b32) (k r) :=
    ⟨fun r => if h : p.Gives r then (second r h).choose else .ret r, fun r h => by
      simp only [dif_pos h]; exact (second r h).choose_spec⟩
  have hw : (p.bind k).Within 2 := Draws.within_bind (n := 1) (m := 1) hp.within fun r hr => (hk r hr).within
  have hrun : (fun l => resVal b32 (square sem l)) = fun l => ((p.bind k).run listGen l).1.val b32 := by
    funext l
    unfold square
    rw [hp.run listGen l, Outcome.bind_ok, (hk _ (Draws.gives_run listGen p l)).run listGen, Draws.run_bind]
    rfl
  rw [hrun, average_run (p.bind k) 2 hw fun r => r.val b32, Draws.E_bind]
  have e1 : (p.E fun r => r.val b32 * (2 + 2 ^ (-23 : ℤ)) + -(1 + 2 ^ (-23 : ℤ) + (2 ^ (-51 : ℤ) + 2 ^ (-60 : ℤ)))) ≤ p.E fun r => (k r).E fun y => y.val b32 := by
    refine Draws.E_le fun r hr => ?_
    have h1 := (hk r hr).mean
    obtain ⟨h2, -, h3, h4⟩ := near r hr
    rw [me, abs_of_nonneg (mul_self_nonneg (r.val b32))] at h1
    have h5 := (abs_le.1 h1).1
    change _ ≤ ((k r).E fun y => y.val b32) - _ at h5
    have h6 := gap r h2
    norm_num at h4 h5 h6 ⊢
    nlinarith
  rw [Draws.E_add, Draws.E_mul_const, Draws.E_const] at e1
  have h1 := hp.mean
  rw [me, abs_of_nonneg (show (0 : ℚ) ≤ 1 + 2 ^ (-24 : ℤ) by positivity)] at h1
  have h2 := (abs_le.1 h1).1
  change _ ≤ (p.E fun r => r.val b32) - _ at h2
  generalize (p.E fun r => r.val b32) = μ at *
  refine le_trans ?_ e1
  norm_num at h2 ⊢
  linarith

end Verif.Pass.Mean
