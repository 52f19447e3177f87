import Verif.Ci.Checks
import Verif.Float.Near
import Verif.Float.Conv
import Verif.Ieee.CmpProps
import Mathlib.Data.List.Nodup

/-!
# Properties of the checks of deterministic backends

Documentation, doc/06-Postprocessing.md:170-173: a probe passes when
`|IEEE value - Backend value| < Target` (absolute), or
`|IEEE value - Backend value| / |IEEE value| < Target` (relative).
-/

namespace Verif.Ci
open Verif Verif.Fp Verif.Ieee Verif.Probes

/-! ## Comparison -/

theorem lt_iff (x y : Bits) (hx : x.WF b64) (hy : y.WF b64) :
    lt x y = true ↔ ¬ x.isNaN b64 ∧ ¬ y.isNaN b64 ∧ num b64 x < num b64 y := by
  unfold lt isless fcompare
  by_cases hn : x.isNaN b64 ∨ y.isNaN b64
  · rw [if_pos hn]
    have : ¬ (¬ x.isNaN b64 ∧ ¬ y.isNaN b64 ∧ num b64 x < num b64 y) := by
      rintro ⟨h1, h2, -⟩; exact hn.elim h1 h2
    simp [this]
  · obtain ⟨nx, ny⟩ := not_or.1 hn
    rw [if_neg hn]
    have := (compare_spec b64 (by decide) x y hx hy nx ny).1
    simp [this, nx, ny]

theorem num_fin {F : Fmt} {x : Bits} (h : x.Fin F) : num F x = ((x.val F : WithTop ℚ) : WithBot (WithTop ℚ)) := by
  unfold num; rw [if_neg h]

/-- Nonnegative and below a finite number: finite. -/
theorem lt_fin {x y : Bits} (hx : x.WF b64) (sx : x.sign = false) (hy : y.WF b64) (fy : y.Fin b64) :
    lt x y = true ↔ x.Fin b64 ∧ x.val b64 < y.val b64 := by
  rw [lt_iff x y hx hy, num_fin fy]
  constructor
  · rintro ⟨-, -, h⟩
    have fx : x.Fin b64 := by
      intro hc
      unfold num at h
      rw [if_pos hc, sx] at h
      simp only [Bool.false_eq_true, if_false] at h
      rw [WithBot.coe_lt_coe] at h
      exact absurd h (not_lt.2 le_top)
    rw [num_fin fx, WithBot.coe_lt_coe, WithTop.coe_lt_coe] at h
    exact ⟨fx, h⟩
  · rintro ⟨fx, h⟩
    refine ⟨(fin_not fx).1, (fin_not fy).1, ?_⟩
    rw [num_fin fx, WithBot.coe_lt_coe, WithTop.coe_lt_coe]
    exact h

theorem abs_val (F : Fmt) (x : Bits) : |x.val F| = (x.mag F : ℚ) * 2 ^ F.uexp := by
  have hu : (0 : ℚ) < 2 ^ F.uexp := zpow_pos (by norm_num) _
  rw [val_eq_mag, abs_mul, abs_mul, abs_of_pos hu]
  unfold sgn
  cases x.sign <;> simp

theorem val_nonneg {F : Fmt} {x : Bits} (h : x.sign = false) : 0 ≤ x.val F := by
  rw [val_eq_mag, h]
  have hu : (0 : ℚ) < 2 ^ F.uexp := zpow_pos (by norm_num) _
  have : (0 : ℚ) ≤ x.mag F := by positivity
  simp only [sgn, Bool.false_eq_true, if_false, one_mul]
  positivity

theorem fabs_val (x : Bits) : (fabs x).val b64 = |x.val b64| := by
  have h : (fabs x).mag b64 = x.mag b64 := rfl
  rw [abs_val, val_eq_mag, h]
  unfold fabs sgn
  simp only [Bool.false_eq_true, if_false, one_mul]

theorem fabs_wf {x : Bits} (h : x.WF b64) : (fabs x).WF b64 := h
theorem fabs_fin {x : Bits} : (fabs x).Fin b64 ↔ x.Fin b64 := Iff.rfl

theorem nanBits_wf : (nanBits b64).WF b64 := by decide
theorem zeroBits_wf (s : Bool) : (zeroBits s).WF b64 := by cases s <;> decide
theorem infBits_wf (s : Bool) : (infBits b64 s).WF b64 := by cases s <;> decide

theorem fadd_wf {x y : Bits} (hx : x.WF b64) (hy : y.WF b64) : (fadd b64 x y).WF b64 := by
  unfold fadd
  simp only
  split
  · exact nanBits_wf
  · split
    · split
      · exact nanBits_wf
      · exact hx
    · split
      · exact hy
      · split
        · exact zeroBits_wf _
        · exact (encode_wf _ _ _ _).1

theorem encodeQ_sign (F : Fmt) (s : Bool) (n d : Nat) : (encodeQ F s n d).sign = s := by
  unfold encodeQ infBits ofPat
  simp only
  split <;> rfl

theorem encode_sign (F : Fmt) (s : Bool) (n j : Nat) : (encode F s n j).sign = s := by
  unfold encode infBits ofPat
  simp only
  split <;> rfl

theorem encodeQ_wf (F : Fmt) (s : Bool) (n d : Nat) : (encodeQ F s n d).WF F := by
  unfold encodeQ
  simp only
  have hew : 0 < 2 ^ F.ew := by positivity
  have hmw : 0 < 2 ^ F.mw := by positivity
  have hE : F.expInf < 2 ^ F.ew := by unfold Fmt.expInf; omega
  split
  · rename_i h
    refine ⟨?_, Nat.mod_lt _ hmw⟩
    show _ / _ < _
    have : (Nat.log2 (n / d) - F.mw) * 2 ^ F.mw + rneDiv n (d * 2 ^ (Nat.log2 (n / d) - F.mw)) < F.expInf * 2 ^ F.mw := h
    rw [Nat.div_lt_iff_lt_mul hmw]
    refine lt_trans this ?_
    exact Nat.mul_lt_mul_of_pos_right hE hmw
  · exact ⟨hE, hmw⟩

theorem fdiv_wf {x y : Bits} : (fdiv b64 x y).WF b64 := by
  unfold fdiv
  split
  · exact nanBits_wf
  · split
    · split
      · exact nanBits_wf
      · exact infBits_wf _
    · split
      · exact zeroBits_wf _
      · split
        · split
          · exact nanBits_wf
          · exact infBits_wf _
        · exact encodeQ_wf _ _ _ _

/-! ## The difference -/

theorem fsub_val (v r : Bits) : v.val b64 + (fneg r).val b64 = v.val b64 - r.val b64 := by
  rw [val_fneg]; ring

/-- The largest finite value. -/
theorem abs_le_maxVal {F : Fmt} (hew : 2 ≤ F.ew) {t : Bits} (ht : t.WF F) (ft : t.Fin F) : |t.val F| ≤ maxVal F := by
  have hu : (0 : ℚ) < 2 ^ F.uexp := zpow_pos (by norm_num) _
  rw [abs_val, maxVal_eq F hew]
  apply mul_le_mul_of_nonneg_right _ hu.le
  have h1 := sig_lt F t ht
  have h2 := fin_lt ht ft
  have : t.sig F * 2 ^ (t.exp - 1) ≤ (2 ^ (F.mw + 1) - 1) * 2 ^ (F.expInf - 2) :=
    Nat.mul_le_mul (by omega) (Nat.pow_le_pow_right (by norm_num) (by omega))
  rw [Nat.cast_le]
  exact this

/-- A difference bounded by a finite number of the format does not overflow. -/
theorem fsub_fin {v r y : Bits} (fv : v.Fin b64) (fr : r.Fin b64) (hy : y.WF b64) (fy : y.Fin b64)
    (h : |v.val b64 - r.val b64| ≤ |y.val b64|) : (fsub v r).Fin b64 := by
  have hm : |v.val b64 + (fneg r).val b64| ≤ maxVal b64 := by
    rw [fsub_val]; exact le_trans h (abs_le_maxVal (by decide) hy fy)
  exact (fadd_round' b64 (by decide) v (fneg r) fv fr _ (lt_of_le_of_lt hm (lt_of_maxVal b64)) hm).2.1

/-- A small number is finite. -/
theorem fin_of_lt {F : Fmt} (hew : 2 ≤ F.ew) {y t : Bits} (ht : t.WF F) (ft : t.Fin F) (h : |y.val F| < |t.val F|) : y.Fin F := by
  intro hc
  have h1 := abs_le_maxVal hew ht ft
  have h2 := lt_of_maxVal F
  have h3 : (2 : ℚ) ^ ((F.bias : ℤ) + 1) ≤ |y.val F| := by
    have hu : (0 : ℚ) < 2 ^ F.uexp := zpow_pos (by norm_num) _
    have hE := expInf_bias F hew
    have hm : 2 ^ F.mw * 2 ^ (F.expInf - 1) ≤ y.mag F := by
      rw [mag_normal F y (by rw [hc]; omega), hc]
      exact Nat.mul_le_mul_right _ (Nat.le_add_right _ _)
    have hm' : (2 : ℚ) ^ F.mw * 2 ^ (F.expInf - 1) ≤ (y.mag F : ℚ) := by exact_mod_cast hm
    rw [abs_val]
    refine le_trans (le_of_eq ?_) (mul_le_mul_of_nonneg_right hm' hu.le)
    rw [← zpow_natCast, ← zpow_natCast, ← zpow_add₀ (by norm_num), ← zpow_add₀ (by norm_num)]
    congr 1
    unfold Fmt.uexp
    omega
  linarith

/-- **An absolute check that passes is right**, and one that fails is right up to the rounding
of the difference: it passes when some number of the format separates the difference from the
target. -/
theorem validate_absolute (v r t : Bits) (hv : v.WF b64) (hr : r.WF b64) (ht : t.WF b64)
    (fv : v.Fin b64) (fr : r.Fin b64) (ft : t.Fin b64) :
    ∃ b, validate "absolute".toList v r t = .ok b ∧
      (b = true → |v.val b64 - r.val b64| < |t.val b64|) ∧
      (∀ y : Bits, y.WF b64 → |v.val b64 - r.val b64| ≤ |y.val b64| → |y.val b64| < |t.val b64| → b = true) := by
  refine ⟨_, rfl, ?_, ?_⟩
  all_goals
    have hs : (fsub v r).WF b64 := fadd_wf hv (fneg_wf hr)
    rw [lt_fin (fabs_wf hs) rfl (fabs_wf ht) (fabs_fin.2 ft), fabs_val, fabs_val, fabs_fin]
  · rintro ⟨hf, h⟩
    by_contra hc
    have := (fadd_mono b64 v (fneg r) fv fr (fin_lt hs hf) t ht).1 (by rw [fsub_val]; exact not_lt.1 hc)
    exact absurd h (not_lt.2 this)
  · intro y hy h1 h2
    have hf := fsub_fin fv fr hy (fin_of_lt (by decide) ht ft h2) h1
    refine ⟨hf, lt_of_le_of_lt ?_ h2⟩
    exact (fadd_mono b64 v (fneg r) fv fr (fin_lt hs hf) y hy).2 (by rw [fsub_val]; exact h1)

theorem isZero_val {F : Fmt} (x : Bits) : x.isZero ↔ x.val F = 0 := by
  rw [← mag_eq_zero F, val_eq_mag]
  have hu : (2 : ℚ) ^ F.uexp ≠ 0 := (zpow_pos (by norm_num) _).ne'
  unfold sgn
  split <;> simp [hu]

/-- The mode is not "absolute". -/
theorem modes_ne : ¬ ("relative".toList = "absolute".toList) := by decide

/-- **A relative check that passes is right up to one rounding.** -/
theorem validate_relative (v r t : Bits) (hv : v.WF b64) (hr : r.WF b64) (ht : t.WF b64)
    (fv : v.Fin b64) (fr : r.Fin b64) (ft : t.Fin b64) (r0 : r.val b64 ≠ 0) :
    ∃ b, validate "relative".toList v r t = .ok b ∧
      (b = true → |v.val b64 - r.val b64| * (1 - 1 / 2 ^ 53) < |t.val b64| * |r.val b64|) := by
  have hs : (fsub v r).WF b64 := fadd_wf hv (fneg_wf hr)
  have z : ¬ (fabs r).isZero := by
    intro h
    rw [isZero_val (F := b64), fabs_val, abs_eq_zero] at h
    exact r0 h
  refine ⟨lt (fdiv b64 (fabs (fsub v r)) (fabs r)) (fabs t), ?_, ?_⟩
  · unfold validate pydiv
    rw [if_neg modes_ne, if_pos rfl, if_neg z]
    rfl
  · intro h
    have hd : (fdiv b64 (fabs (fsub v r)) (fabs r)).WF b64 := fdiv_wf
    have fs : (fsub v r).Fin b64 := by
      rcases kinds b64 (fsub v r) with hn | hi | hf
      · exfalso
        have hnd : (fdiv b64 (fabs (fsub v r)) (fabs r)).isNaN b64 := by
          have : (fabs (fsub v r)).isNaN b64 := hn
          unfold fdiv
          rw [if_pos (Or.inl this)]
          exact isNaN_nanBits b64
        exact ((lt_iff _ _ hd (fabs_wf ht)).1 h).1 hnd
      · exfalso
        have hi' : (fabs (fsub v r)).isInf b64 := hi
        have e : fdiv b64 (fabs (fsub v r)) (fabs r) = infBits b64 false := by
          unfold fdiv
          rw [if_neg, if_pos hi', if_neg (fin_not (fabs_fin.2 fr)).2]
          · rfl
          · rintro (h1 | h1)
            · exact h1.2 hi'.2
            · exact (fin_not (fabs_fin.2 fr)).1 h1
        rw [e, lt_fin (infBits_wf _) rfl (fabs_wf ht) (fabs_fin.2 ft)] at h
        exact h.1 rfl
      · exact hf
    have sg : (fdiv b64 (fabs (fsub v r)) (fabs r)).sign = false := by
      have na : ¬ ((fabs (fsub v r)).isNaN b64 ∨ (fabs r).isNaN b64) := by
        rintro (h1 | h1)
        · exact (fin_not (fabs_fin.2 fs)).1 h1
        · exact (fin_not (fabs_fin.2 fr)).1 h1
      unfold fdiv
      rw [if_neg na, if_neg (fin_not (fabs_fin.2 fs)).2, if_neg (fin_not (fabs_fin.2 fr)).2, if_neg z]
      rw [encodeQ_sign]
      rfl
    rw [lt_fin hd sg (fabs_wf ht) (fabs_fin.2 ft)] at h
    obtain ⟨hf, h⟩ := h
    have h1 : |(fabs (fsub v r)).val b64 / (fabs r).val b64| < |t.val b64| := by
      by_contra hc
      have := (fdiv_mono b64 (by decide) _ _ (fabs_fin.2 fs) (fabs_fin.2 fr) z (fin_lt hd hf) t ht).1 (not_lt.1 hc)
      have h2 := le_abs_self ((fdiv b64 (fabs (fsub v r)) (fabs r)).val b64)
      have h3 : |(fdiv b64 (fabs (fsub v r)) (fabs r)).val b64| = (fdiv b64 (fabs (fsub v r)) (fabs r)).val b64 := by
        exact abs_of_nonneg (val_nonneg sg)
      rw [h3] at this
      rw [fabs_val] at h
      linarith
    rw [fabs_val, fabs_val, abs_div, abs_abs, abs_abs, div_lt_iff₀ (abs_pos.2 r0)] at h1
    have h2 := (fadd_finite b64 v (fneg r) fv fr (fin_lt hs fs)).2
    have e53 : b64.mw + 1 = 53 := rfl
    rw [fsub_val, e53] at h2
    have h3 : |v.val b64 - r.val b64| - |(fsub v r).val b64| ≤ |(fsub v r).val b64 - (v.val b64 - r.val b64)| := by
      rw [abs_sub_comm (Bits.val b64 (fsub v r))]; exact abs_sub_abs_le_abs_sub _ _
    have h4 : |(fsub v r).val b64 - (v.val b64 - r.val b64)| * 2 ^ 53 ≤ |v.val b64 - r.val b64| := h2
    have h5 : |(fsub v r).val b64 - (v.val b64 - r.val b64)| ≤ |v.val b64 - r.val b64| * (1 / 2 ^ 53) := by
      rw [mul_one_div, le_div_iff₀ (by positivity)]; exact h4
    linarith

/-! ## The whole run -/

/-- The names of a probe. -/
def names (c : Call) : List Char × List Char := (c.test, c.var)

/-- A threshold that is not negative (and not a NaN). -/
def NonNeg (x : Bits) : Prop := x.WF b64 ∧ ¬ x.isNaN b64 ∧ x.sign = false

theorem nonneg_val {x : Bits} (h : NonNeg x) : 0 ≤ x.val b64 := val_nonneg h.2.2

theorem fadd_nonneg {x y : Bits} (hx : NonNeg x) (hy : NonNeg y) :
    NonNeg (fadd b64 x y) ∧ ((fadd b64 x y).isZero → x.isZero ∧ y.isZero) := by
  have inz : ∀ z : Bits, z.isInf b64 → ¬ z.isZero := by
    rintro z ⟨h1, h2⟩ ⟨h3, -⟩
    rw [h1] at h3; exact absurd h3 (by decide)
  by_cases ix : x.isInf b64
  · have e : fadd b64 x y = x := by
      rw [fadd_inf_left ix hy.2.1 (fun _ => by rw [hx.2.2, hy.2.2]), ← inf_eq b64 x ix]
    rw [e]
    exact ⟨hx, fun h => absurd h (inz x ix)⟩
  have fx : x.Fin b64 := by
    rcases kinds b64 x with h | h | h
    · exact absurd h hx.2.1
    · exact absurd h ix
    · exact h
  by_cases iy : y.isInf b64
  · have e : fadd b64 x y = y := by
      rw [fadd_inf_right fx iy, ← inf_eq b64 y iy]
    rw [e]
    exact ⟨hy, fun h => absurd h (inz y iy)⟩
  have fy : y.Fin b64 := by
    rcases kinds b64 y with h | h | h
    · exact absurd h hy.2.1
    · exact absurd h iy
    · exact h
  have vx := nonneg_val hx
  have vy := nonneg_val hy
  have hw : (fadd b64 x y).WF b64 := fadd_wf hx.1 hy.1
  have hsum : 0 ≤ x.imag b64 + y.imag b64 := by
    unfold Bits.imag
    rw [hx.2.2, hy.2.2]
    simp only [Bool.false_eq_true, if_false]
    positivity
  have hsg : (fadd b64 x y).sign = false := by
    rw [fadd_fin fx fy]
    split
    · simp [zeroBits, hx.2.2]
    · rw [decide_eq_false (not_lt.2 hsum)]
      exact encode_sign _ _ _ _
  have hnn : ¬ (fadd b64 x y).isNaN b64 := by
    rw [fadd_fin fx fy]
    split
    · rintro ⟨h, -⟩; exact (by decide : ¬ 0 = b64.expInf) h
    · exact (encode_wf _ _ _ _).2
  refine ⟨⟨hw, hnn, hsg⟩, ?_⟩
  intro hz
  have hf : (fadd b64 x y).exp < b64.expInf := by rw [hz.1]; decide
  have hz' := (isZero_val (F := b64) _).1 hz
  have hmono := fun t ht => (fadd_mono b64 x y fx fy hf t ht).1
  have m1 := hmono x hx.1 (by rw [abs_of_nonneg vx, abs_of_nonneg (by linarith)]; linarith)
  have m2 := hmono y hy.1 (by rw [abs_of_nonneg vy, abs_of_nonneg (by linarith)]; linarith)
  rw [hz', abs_zero, abs_nonpos_iff] at m1 m2
  exact ⟨(isZero_val (F := b64) _).2 m1, (isZero_val (F := b64) _).2 m2⟩

/-- However they are added, nonnegative thresholds that are not all zero have a sum that is
not zero. -/
theorem sums_nonneg {l : List Bits} {x : Bits} (h : Sums l x) :
    (∀ t ∈ l, NonNeg t) → NonNeg x ∧ (x.isZero → ∀ t ∈ l, t.isZero) := by
  induction h with
  | nil => intro _; exact ⟨⟨zeroBits_wf _, by decide, rfl⟩, fun _ t ht => absurd ht (List.not_mem_nil)⟩
  | one x =>
    intro h
    refine ⟨h x (by simp), fun hz t ht => ?_⟩
    rw [List.mem_singleton] at ht
    rw [ht]; exact hz
  | add _ _ ih1 ih2 =>
    intro h
    obtain ⟨n1, z1⟩ := ih1 fun t ht => h t (List.mem_append_left _ ht)
    obtain ⟨n2, z2⟩ := ih2 fun t ht => h t (List.mem_append_right _ ht)
    obtain ⟨n3, z3⟩ := fadd_nonneg n1 n2
    refine ⟨n3, fun hz t ht => ?_⟩
    rcases List.mem_append.1 ht with ht | ht
    · exact z1 (z3 hz).1 t ht
    · exact z2 (z3 hz).2 t ht
  | perm _ hp ih =>
    intro h
    obtain ⟨n1, z1⟩ := ih fun t ht => h t (hp.mem_iff.1 ht)
    exact ⟨n1, fun hz t ht => z1 hz t (hp.mem_iff.2 ht)⟩

theorem pat_eq_zero {F : Fmt} {x : Bits} (h : x.pat F = 0) : x.isZero := by
  unfold Bits.pat at h
  have hp : 0 < 2 ^ F.mw := by positivity
  obtain ⟨h1, h2⟩ := Nat.add_eq_zero_iff.1 h
  exact ⟨(Nat.mul_eq_zero.1 h1).resolve_right hp.ne', h2⟩

theorem eqC_zero {F : Fmt} (hi : F.expInf ≠ 0) {x : Bits} (hn : ¬ x.isNaN F) (hs : x.sign = false) (hz : ¬ x.isZero) :
    eqC F x (zeroBits false) = false := by
  have hk : ¬ key F x = key F (zeroBits false) := by
    intro hh
    apply hz
    have h0 : key F (zeroBits false) = 0 := by simp [key, zeroBits, Bits.pat]
    rw [h0] at hh
    unfold key at hh
    rw [hs] at hh
    simp only [Bool.false_eq_true, if_false] at hh
    exact pat_eq_zero (by exact_mod_cast hh)
  unfold eqC fcompare
  rw [if_neg (by rintro (h1 | h1); exact hn h1; exact hi h1.1.symm)]
  simp only [Option.some.injEq, decide_eq_false_iff_not]
  rw [Int.compare_eq_eq]
  exact hk

theorem ok_bind_inv {α β : Type} {x : Outcome α} {f : α → Outcome β} {b : β} (h : x >>= f = .ok b) :
    ∃ a, x = .ok a ∧ f a = .ok b := by
  cases x with
  | ok a => exact ⟨a, rfl, h⟩
  | exit => exact absurd h (by simp)
  | ub => exact absurd h (by simp)

theorem checkRows_spec (refs : List Call) (rows : List Call) : ∀ (i : Nat) (rs : List Result),
    checkRows refs i rows = .ok rs → rs.map (·.probe) = rows ∧
      ∀ k c, rows[k]? = some c → ∃ b, rs[k]? = some ⟨c, reference refs (i + k), b⟩ ∧
        validate c.mode c.value (reference refs (i + k)) c.threshold = .ok b := by
  induction rows with
  | nil =>
    intro i rs h
    have := Outcome.ok.inj h
    subst this
    exact ⟨rfl, fun k c hc => by simp at hc⟩
  | cons c cs ih =>
    intro i rs h
    obtain ⟨b, hb, h⟩ := ok_bind_inv h
    obtain ⟨rs', hr, h⟩ := ok_bind_inv h
    have := Outcome.ok.inj h
    subst this
    obtain ⟨h1, h2⟩ := ih (i + 1) rs' hr
    refine ⟨by simp [h1], ?_⟩
    intro k d hd
    cases k with
    | zero =>
      simp only [List.getElem?_cons_zero, Option.some.injEq] at hd
      subst hd
      exact ⟨b, by simp, hb⟩
    | succ k =>
      simp only [List.getElem?_cons_succ] at hd
      obtain ⟨b', h3, h4⟩ := h2 k d hd
      rw [show i + 1 + k = i + (k + 1) by omega] at h3 h4
      exact ⟨b', by simpa using h3, h4⟩

/-- **C69, which reference.**  When no threshold is negative, one of them is not zero, and the
reference run records the same probes in the same order, every probe is checked against the
value that the probe of the same name has in the reference run. -/
theorem C69_reference_partial (sum : List Bits → Bits) (hs : ∀ l, Sums l (sum l)) (rows refs : List Call) (rs : List Result)
    (hkeys : refs.map names = rows.map names) (hnd : (rows.map names).Nodup)
    (hthr : ∀ c ∈ rows, NonNeg c.threshold) (hpos : ∃ c ∈ rows, ¬ c.threshold.isZero)
    (h : runDeterministic sum rows refs = .ok rs) :
    rs.map (·.probe) = rows ∧ ∀ c ∈ rows, ∀ d ∈ refs, names d = names c →
      ∃ b, (⟨c, d.value, b⟩ : Result) ∈ rs ∧ validate c.mode c.value d.value c.threshold = .ok b := by
  obtain ⟨n1, z1⟩ := sums_nonneg (hs (rows.map (·.threshold))) (by
    intro t ht
    obtain ⟨c, hc, rfl⟩ := List.mem_map.1 ht
    exact hthr c hc)
  have hz : ¬ (sum (rows.map (·.threshold))).isZero := by
    intro hz
    obtain ⟨c, hc, hc0⟩ := hpos
    exact hc0 (z1 hz _ (List.mem_map_of_mem hc))
  unfold runDeterministic at h
  rw [eqC_zero (by decide) n1.2.1 n1.2.2 hz] at h
  simp only [Bool.false_eq_true, if_false] at h
  obtain ⟨h1, h2⟩ := checkRows_spec refs rows 0 rs h
  refine ⟨h1, ?_⟩
  intro c hc d hd hn
  obtain ⟨k, hk, hkc⟩ := List.getElem_of_mem hc
  obtain ⟨j, hj, hjd⟩ := List.getElem_of_mem hd
  have hlen : refs.length = rows.length := by
    have := congrArg List.length hkeys
    simpa using this
  have hjk : j = k := by
    have e1 : (rows.map names)[j]'(by simpa using hlen ▸ hj) = (rows.map names)[k]'(by simpa using hk) := by
      have : (rows.map names)[j]'(by simpa using hlen ▸ hj) = (refs.map names)[j]'(by simpa using hj) := by
        simp only [hkeys]
      rw [this]
      simp only [List.getElem_map]
      rw [hjd, hkc, hn]
    exact (List.Nodup.getElem_inj_iff hnd).1 e1
  subst hjk
  have hr : reference refs j = d.value := by
    unfold reference
    rw [List.getElem?_eq_getElem hj, hjd]
  obtain ⟨b, h3, h4⟩ := h2 j c (by rw [List.getElem?_eq_getElem hk, hkc])
  rw [Nat.zero_add, hr] at h3 h4
  exact ⟨b, List.mem_of_getElem? h3, h4⟩

/-- **C69, absolute checks.**  Under the hypotheses of `C69_reference_partial`, a probe with an
absolute check passes only if the exact distance of its value to the IEEE value is below the
target, and it does pass when a number of the format lies between the two.  Missing from the full
statement (it passes if and only if the distance is below the target): a distance that rounds
to the target (`C69_absolute_wrong`); thresholds of both signs (`C69_cancel_wrong`); a
reference run that records other probes (`C69_order_wrong`). -/
theorem C69_absolute_partial (sum : List Bits → Bits) (hs : ∀ l, Sums l (sum l)) (rows refs : List Call) (rs : List Result)
    (hkeys : refs.map names = rows.map names) (hnd : (rows.map names).Nodup)
    (hthr : ∀ c ∈ rows, NonNeg c.threshold) (hpos : ∃ c ∈ rows, ¬ c.threshold.isZero)
    (h : runDeterministic sum rows refs = .ok rs)
    (c d : Call) (hc : c ∈ rows) (hd : d ∈ refs) (hn : names d = names c) (hm : c.mode = "absolute".toList)
    (hv : c.value.WF b64) (fv : c.value.Fin b64) (hr : d.value.WF b64) (fr : d.value.Fin b64) (ft : c.threshold.Fin b64) :
    ∃ b, (⟨c, d.value, b⟩ : Result) ∈ rs ∧
      (b = true → |d.value.val b64 - c.value.val b64| < |c.threshold.val b64|) ∧
      (∀ y : Bits, y.WF b64 → |d.value.val b64 - c.value.val b64| ≤ |y.val b64| →
        |y.val b64| < |c.threshold.val b64| → b = true) := by
  obtain ⟨b, h1, h2⟩ := (C69_reference_partial sum hs rows refs rs hkeys hnd hthr hpos h).2 c hc d hd hn
  obtain ⟨b', h3, h4, h5⟩ := validate_absolute c.value d.value c.threshold hv hr (hthr c hc).1 fv fr ft
  rw [hm, h3] at h2
  have := Outcome.ok.inj h2
  subst this
  rw [abs_sub_comm]
  exact ⟨b', h1, h4, h5⟩

/-- **C69, relative checks.**  Under the same hypotheses, a probe with a relative check passes
only if the exact distance is below the target times the IEEE value, up to a factor
`1 - 2^-53`.  Missing from the full statement: the factor (`C69_relative_wrong`), and an IEEE
value that is zero (`C69_zero_wrong`). -/
theorem C69_relative_partial (sum : List Bits → Bits) (hs : ∀ l, Sums l (sum l)) (rows refs : List Call) (rs : List Result)
    (hkeys : refs.map names = rows.map names) (hnd : (rows.map names).Nodup)
    (hthr : ∀ c ∈ rows, NonNeg c.threshold) (hpos : ∃ c ∈ rows, ¬ c.threshold.isZero)
    (h : runDeterministic sum rows refs = .ok rs)
    (c d : Call) (hc : c ∈ rows) (hd : d ∈ refs) (hn : names d = names c) (hm : c.mode = "relative".toList)
    (hv : c.value.WF b64) (fv : c.value.Fin b64) (hr : d.value.WF b64) (fr : d.value.Fin b64) (ft : c.threshold.Fin b64)
    (r0 : d.value.val b64 ≠ 0) :
    ∃ b, (⟨c, d.value, b⟩ : Result) ∈ rs ∧
      (b = true → |d.value.val b64 - c.value.val b64| * (1 - 1 / 2 ^ 53) < |c.threshold.val b64| * |d.value.val b64|) := by
  obtain ⟨b, h1, h2⟩ := (C69_reference_partial sum hs rows refs rs hkeys hnd hthr hpos h).2 c hc d hd hn
  obtain ⟨b', h3, h4⟩ := validate_relative c.value d.value c.threshold hv hr (hthr c hc).1 fv fr ft r0
  rw [hm, h3] at h2
  have := Outcome.ok.inj h2
  subst this
  rw [abs_sub_comm]
  exact ⟨b', h1, h4⟩

/-- **C69, probes without a check** pass, whatever happens to the others. -/
theorem C69_no_check (sum : List Bits → Bits) (rows refs : List Call) (rs : List Result)
    (h : runDeterministic sum rows refs = .ok rs) (c : Call) (hc : c ∈ rows) (hm : c.mode = "none".toList) :
    ∃ r, (⟨c, r, true⟩ : Result) ∈ rs := by
  unfold runDeterministic at h
  split at h
  · have := Outcome.ok.inj h
    subst this
    exact ⟨_, List.mem_map_of_mem hc⟩
  · obtain ⟨k, hk, hkc⟩ := List.getElem_of_mem hc
    obtain ⟨b, h1, h2⟩ := (checkRows_spec refs rows 0 rs h).2 k c (by rw [List.getElem?_eq_getElem hk, hkc])
    have : b = true := by
      unfold validate at h2
      rw [hm, if_neg (by decide), if_neg (by decide)] at h2
      exact (Outcome.ok.inj h2).symm
    rw [this] at h1
    exact ⟨_, List.mem_of_getElem? h1⟩

/-! ## Examples and negations -/

/-- The additions of a list, from the left. -/
def naive (l : List Bits) : Bits := l.foldl (fadd b64) (zeroBits false)

theorem naive_sums (l : List Bits) : Sums l (naive l) := by
  have key : ∀ (l : List Bits) (p : List Bits) (x : Bits), Sums p x → Sums (p ++ l) (l.foldl (fadd b64) x) := by
    intro l
    induction l with
    | nil => intro p x h; simpa using h
    | cons a l ih =>
      intro p x h
      have := ih (p ++ [a]) (fadd b64 x a) (Sums.add h (Sums.one a))
      simpa using this
  exact key l [] _ Sums.nil

/-- `1.0`, `2.0`, `0.5`, `-1.0`, `1 - 2^-53`, `2^-54`. -/
def one : Bits := ⟨false, 1023, 0⟩
def two : Bits := ⟨false, 1024, 0⟩
def half : Bits := ⟨false, 1022, 0⟩

/-- A run of two probes, the second with a check that passes. -/
example : runDeterministic naive
    [probe ['t'] ['x'] two, probeCheck ['t'] ['y'] one two] [probe ['t'] ['x'] one, probeCheck ['t'] ['y'] two two] =
    .ok [⟨probe ['t'] ['x'] two, one, true⟩, ⟨probeCheck ['t'] ['y'] one two, two, true⟩] := by
  decide +kernel

/-- The hypotheses of the theorems are satisfied by this run. -/
example : ∃ b, (⟨probeCheck ['t'] ['y'] one two, two, b⟩ : Result) ∈
      [(⟨probe ['t'] ['x'] two, one, true⟩ : Result), ⟨probeCheck ['t'] ['y'] one two, two, true⟩] ∧
    (b = true → |two.val b64 - one.val b64| < |two.val b64|) := by
  obtain ⟨b, h1, h2, -⟩ := C69_absolute_partial naive naive_sums
    [probe ['t'] ['x'] two, probeCheck ['t'] ['y'] one two] [probe ['t'] ['x'] one, probeCheck ['t'] ['y'] two two]
    [⟨probe ['t'] ['x'] two, one, true⟩, ⟨probeCheck ['t'] ['y'] one two, two, true⟩] (by decide) (by decide)
    (by
      intro c hc
      simp only [List.mem_cons, List.not_mem_nil, or_false] at hc
      rcases hc with rfl | rfl <;> exact ⟨by decide, by decide, by decide⟩)
    ⟨probeCheck ['t'] ['y'] one two, by simp, by decide⟩ (by decide +kernel)
    (probeCheck ['t'] ['y'] one two) (probeCheck ['t'] ['y'] two two) (by simp) (by simp) rfl rfl
    (by decide) (by decide) (by decide) (by decide) (by decide)
  exact ⟨b, h1, h2⟩

/-- **C69, negation: an absolute check.**  The distance of 1 to `2^-55` is below 1, and the
check with target 1 fails: the difference is rounded to 1. -/
theorem C69_absolute_wrong : ∃ rows refs : List Call, rows.map names = refs.map names ∧
    runDeterministic naive rows refs = .ok [⟨probeCheck ['t'] ['x'] one one, ⟨false, 968, 0⟩, false⟩] ∧
    |(⟨false, 968, 0⟩ : Bits).val b64 - one.val b64| < |one.val b64| := by
  refine ⟨[probeCheck ['t'] ['x'] one one], [probeCheck ['t'] ['x'] ⟨false, 968, 0⟩ one], by decide, by decide +kernel, ?_⟩
  have h1 : one.val b64 = 1 := by
    simp [Bits.val, Bits.sig, Bits.lsb, one, b64, Fmt.bias, sgn]
    norm_num
  have h2 : (⟨false, 968, 0⟩ : Bits).val b64 = 1 / 2 ^ 55 := by
    simp [Bits.val, Bits.sig, Bits.lsb, b64, Fmt.bias, sgn]
    norm_num
  rw [h1, h2]
  norm_num [abs_lt]

/-- **C69, negation: a relative check.**  A check that passes though the exact quotient is not
below the target: the difference is rounded down, then the quotient. -/
theorem C69_relative_wrong : ∃ v r t : Bits, v.WF b64 ∧ r.WF b64 ∧ t.WF b64 ∧
    runDeterministic naive [probeCheckRel ['t'] ['x'] v t] [probeCheckRel ['t'] ['x'] r t] =
      .ok [⟨probeCheckRel ['t'] ['x'] v t, r, true⟩] ∧
    ¬ |r.val b64 - v.val b64| / |r.val b64| < t.val b64 := by
  refine ⟨⟨false, 1023, 1⟩, ⟨true, 1020, 957104131680972⟩, ⟨false, 1025, 4050796861082978⟩,
    by decide, by decide, by decide, by decide +kernel, ?_⟩
  have h1 : (⟨false, 1023, 1⟩ : Bits).val b64 = 1 + 1 / 2 ^ 52 := by
    simp [Bits.val, Bits.sig, Bits.lsb, b64, Fmt.bias, sgn]
    norm_num
  have h2 : (⟨true, 1020, 957104131680972⟩ : Bits).val b64 = -((2 ^ 52 + 957104131680972) / 2 ^ 55) := by
    simp [Bits.val, Bits.sig, Bits.lsb, b64, Fmt.bias, sgn]
    norm_num
  have h3 : (⟨false, 1025, 4050796861082978⟩ : Bits).val b64 = (2 ^ 52 + 4050796861082978) / 2 ^ 50 := by
    simp [Bits.val, Bits.sig, Bits.lsb, b64, Fmt.bias, sgn]
    norm_num
  rw [h1, h2, h3, abs_neg, abs_of_neg (by norm_num), abs_of_pos (by norm_num)]
  norm_num

/-- **C69, negation: thresholds of both signs.**  The code compares with the absolute value of
the threshold, so a negative one is a check; but with the thresholds 1 and -1 there is no
reference run, and both probes pass with the values 2 and the IEEE values 0.5. -/
theorem C69_cancel_wrong : ∃ rows refs : List Call, rows.map names = refs.map names ∧
    (∃ c ∈ rows, ∃ d ∈ refs, names c = names d ∧ validate c.mode c.value d.value c.threshold = .ok false) ∧
    runDeterministic naive rows refs = .ok (rows.map fun c => ⟨c, zeroBits false, true⟩) := by
  refine ⟨[probeCheck ['t'] ['x'] two one, probeCheck ['t'] ['y'] two (fneg one)],
    [probeCheck ['t'] ['x'] half one, probeCheck ['t'] ['y'] half (fneg one)], by decide, ?_, by decide +kernel⟩
  exact ⟨_, List.mem_cons_self, _, List.mem_cons_self, by decide, by decide +kernel⟩

/-- **C69, negation: the order of the rows.**  The reference run records one more probe, before
the others: the value of `y` is checked against the IEEE value of `x`, and fails although it is
equal to its own IEEE value. -/
theorem C69_order_wrong : ∃ rows refs : List Call,
    (∃ c ∈ rows, ∃ d ∈ refs, names c = names d ∧ c.value = d.value ∧
      validate c.mode c.value d.value c.threshold = .ok true) ∧
    runDeterministic naive rows refs = .ok [⟨probeCheck ['t'] ['y'] two half, one, false⟩] := by
  refine ⟨[probeCheck ['t'] ['y'] two half], [probe ['t'] ['x'] one, probeCheck ['t'] ['y'] two half], ?_, by decide +kernel⟩
  exact ⟨_, List.mem_cons_self, _, List.mem_cons_of_mem _ List.mem_cons_self, by decide, by decide, by decide +kernel⟩

/-- **C69, negation: a target of zero.**  Whether a check with target 0 passes depends on the
other probes: alone it passes, beside a probe with a positive target it fails. -/
theorem C69_target_zero_wrong :
    (∀ v r : Bits, runDeterministic naive [probeCheck ['t'] ['x'] v (zeroBits false)]
      [probeCheck ['t'] ['x'] r (zeroBits false)] = .ok [⟨probeCheck ['t'] ['x'] v (zeroBits false), zeroBits false, true⟩]) ∧
    ∃ rs, runDeterministic naive [probeCheck ['t'] ['x'] two (zeroBits false), probeCheck ['t'] ['y'] one one]
      [probeCheck ['t'] ['x'] one (zeroBits false), probeCheck ['t'] ['y'] one one] = .ok rs ∧
      ⟨probeCheck ['t'] ['x'] two (zeroBits false), one, false⟩ ∈ rs := by
  constructor
  · intro v r
    unfold runDeterministic
    rw [if_pos (by show eqC b64 (naive [zeroBits false]) (zeroBits false) = true; decide +kernel)]
    rfl
  · exact ⟨[⟨probeCheck ['t'] ['x'] two (zeroBits false), one, false⟩, ⟨probeCheck ['t'] ['y'] one one, one, true⟩],
      by decide +kernel, by simp⟩

/-- **C69, negation: an IEEE value that is zero.**  A relative check of a probe whose IEEE value
is zero raises `ZeroDivisionError`, whatever its value: no result is written at all. -/
theorem C69_zero_wrong (v t : Bits) (s : Bool) : validate "relative".toList v (zeroBits s) t = .exit := by
  unfold validate pydiv
  have z : (fabs (zeroBits s)).isZero := ⟨rfl, rfl⟩
  rw [if_neg modes_ne, if_pos rfl, if_pos z]
  rfl

end Verif.Ci
