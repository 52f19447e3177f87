import Verif.Vprec.Props

/-! # Properties of VPREC rounding (C03 - C07) -/

namespace Verif.Vprec
open Verif Verif.Fp

/-- The rounded value, also for zero and flushed inputs. -/
def rndAll (F : Fmt) (r p : Nat) (flush : Bool) (x : Bits) : ℚ :=
  if x.val F = 0 ∨ (flush = true ∧ |x.val F| < 2 ^ Spec.emin r) then 0 else rndVal F r p x

structure AllFacts (F : Fmt) (r p : Nat) (flush : Bool) (x y : Bits) : Prop where
  wf : y.WF F
  fin : |rndAll F r p flush x| < 2 ^ (Spec.emax r + 1) → y.Fin F ∧ y.val F = rndAll F r p flush x
  inf : 2 ^ (Spec.emax r + 1) ≤ |rndAll F r p flush x| → y = infBits F x.sign
  sign : rndAll F r p flush x ≠ 0 → y.sign = x.sign

theorem roundBinary_all (sem : ShiftSem) (F : Fmt) (w : Nat) (hF : IsC F w) (x : Bits) (inp : Bool)
    (c : Ctx) (r p : Nat) (habs : c.absErr = false) (hr : 2 ≤ r) (hr2 : r ≤ F.ew)
    (hp1 : 1 ≤ p) (hpz : p ≤ F.mw) (hp : p < F.mw ∨ sem = .wrap) (hx : x.WF F) (hfin : x.Fin F) :
    ∃ y, roundBinary sem F w x inp c r p = .ok y ∧
      AllFacts F r p ((c.daz && inp) || (c.ftz && !inp)) x y := by
  obtain ⟨hem1, hem2, hrr, hcmin, hcap, hw, hew2, hinf⟩ := range_facts F w hF r p hr hr2 hpz
  have hfin' : x.exp < F.expInf := by
    have := hx.1; unfold Bits.Fin Fmt.expInf at *; omega
  have hpos : (0 : ℚ) < 2 ^ (Spec.emax r + 1) := by positivity
  by_cases h0 : x.mag F = 0
  · have hz : x.isZero := (mag_eq_zero F x).1 h0
    refine ⟨x, roundBinary_zero sem F w hF x inp c r p hr hr2 hz, ?_⟩
    have hv : x.val F = 0 := (val_eq_zero F x).2 h0
    have hra : rndAll F r p ((c.daz && inp) || (c.ftz && !inp)) x = 0 := by
      unfold rndAll; rw [if_pos (Or.inl hv)]
    constructor
    · exact hx
    · intro _; exact ⟨hfin, by rw [hra, hv]⟩
    · rw [hra, abs_zero]; intro h; linarith
    · intro h; exact absurd hra h
  · refine ⟨_, roundBinary_rel sem F w hF x inp c r p habs hr hr2 hp1 hpz (by tauto) hx hfin' h0, ?_⟩
    have hv : x.val F ≠ 0 := by rw [Ne, val_eq_zero]; exact h0
    by_cases hfl : ((c.daz && inp) || (c.ftz && !inp)) = true ∧ (x.exp : Int) - F.bias < Spec.emin r
    · have hra : rndAll F r p ((c.daz && inp) || (c.ftz && !inp)) x = 0 := by
        unfold rndAll
        rw [if_pos (Or.inr ⟨hfl.1, (below_emin F w hF r hr hr2 x hx h0).1 hfl.2⟩)]
      have hrel : relResult F r p ((c.daz && inp) || (c.ftz && !inp)) x = zeroBits x.sign := by
        unfold relResult; rw [if_pos hfl]
      rw [hrel]
      constructor
      · exact zero_wf F _
      · intro _
        refine ⟨?_, by rw [hra, val_zero]⟩
        show 0 ≠ F.expInf; omega
      · rw [hra, abs_zero]; intro h; linarith
      · intro h; exact absurd hra h
    · have hf := relFacts F w hF x r p ((c.daz && inp) || (c.ftz && !inp)) hr hr2 hpz h0 hfl
      have hra : rndAll F r p ((c.daz && inp) || (c.ftz && !inp)) x = rndVal F r p x := by
        unfold rndAll
        rw [if_neg]
        rintro (h | ⟨h1, h2⟩)
        · exact hv h
        · exact hfl ⟨h1, (below_emin F w hF r hr hr2 x hx h0).2 h2⟩
      constructor
      · exact hf.wf
      · rw [hra]; intro h; exact ⟨(hf.fin h).1.ne, (hf.fin h).2⟩
      · rw [hra]; exact hf.inf
      · rw [hra]; exact hf.sign

/-! ## C03 -/

/-- C03: every finite result is a number of the requested format. -/
theorem C03_result_in_format (sem : ShiftSem) (F : Fmt) (w : Nat) (hF : IsC F w) (x y : Bits)
    (inp : Bool) (c : Ctx) (r p : Nat) (habs : c.absErr = false) (hr : 2 ≤ r) (hr2 : r ≤ F.ew)
    (hp1 : 1 ≤ p) (hpz : p ≤ F.mw) (hp : p < F.mw ∨ sem = .wrap) (hx : x.WF F) (hfin : x.Fin F)
    (hy : roundBinary sem F w x inp c r p = .ok y) (hyf : y.Fin F) :
    Spec.InFmt p (Spec.emin r) (y.val F) ∧ |y.val F| < 2 ^ (Spec.emax r + 1) := by
  obtain ⟨hem1, hem2, hrr, hcmin, hcap, hw, hew2, hinf⟩ := range_facts F w hF r p hr hr2 hpz
  obtain ⟨y', hy', hf⟩ := roundBinary_all sem F w hF x inp c r p habs hr hr2 hp1 hpz hp hx hfin
  rw [hy] at hy'
  injection hy' with hyy
  subst hyy
  by_cases hb : |rndAll F r p ((c.daz && inp) || (c.ftz && !inp)) x| < 2 ^ (Spec.emax r + 1)
  · rw [(hf.fin hb).2]
    refine ⟨?_, hb⟩
    unfold rndAll
    split_ifs with h
    · exact ⟨0, Spec.emin r - p, by simp, le_rfl, by simp⟩
    · apply rndVal_inFmt F r p x _ hcmin
      rw [Ne, ← val_eq_zero]
      tauto
  · have := hf.inf (not_lt.1 hb)
    rw [this] at hyf
    exact absurd rfl hyf

/-- The result is always defined, so the hypothesis of C03 is met by every input. -/
theorem C03_result_defined (sem : ShiftSem) (F : Fmt) (w : Nat) (hF : IsC F w) (x : Bits)
    (inp : Bool) (c : Ctx) (r p : Nat) (habs : c.absErr = false) (hr : 2 ≤ r) (hr2 : r ≤ F.ew)
    (hp1 : 1 ≤ p) (hpz : p ≤ F.mw) (hp : p < F.mw ∨ sem = .wrap) (hx : x.WF F) :
    ∃ y, roundBinary sem F w x inp c r p = .ok y ∧ y.WF F := by
  by_cases hfin : x.Fin F
  · obtain ⟨y, hy, hf⟩ := roundBinary_all sem F w hF x inp c r p habs hr hr2 hp1 hpz hp hx hfin
    exact ⟨y, hy, hf.wf⟩
  · exact ⟨x, roundBinary_special sem F w x inp c r p (by unfold Bits.Fin at hfin; omega), hx⟩

/-- pi in `double` rounded to bfloat16 precision, exponent range 5 bits. -/
example : round64 .strict ⟨false, 1024, 0x921fb54442d18⟩ false relCtx 5 7 =
    .ok ⟨false, 1024, 0x9200000000000⟩ := by decide +kernel

/-! ## C04 -/

theorem rndVal_idem (F : Fmt) (w : Nat) (hF : IsC F w) (r p : Nat) (hr : 2 ≤ r) (hr2 : r ≤ F.ew)
    (hpz : p ≤ F.mw) (x y : Bits) (hx0 : x.mag F ≠ 0)
    (hs : y.sign = x.sign) (hm : y.mag F = rnd p (cminOf F r p) (x.mag F)) (hy0 : y.mag F ≠ 0) :
    rndVal F r p y = rndVal F r p x := by
  unfold rndVal
  rw [hs, hm, rnd_idem _ _ _ hx0 (by rw [← hm]; exact hy0)]

/-- C04: rounding a second time changes nothing, bit for bit. -/
theorem C04_idempotent (sem : ShiftSem) (F : Fmt) (w : Nat) (hF : IsC F w) (x y : Bits)
    (inp inp' : Bool) (c : Ctx) (r p : Nat) (habs : c.absErr = false) (hr : 2 ≤ r) (hr2 : r ≤ F.ew)
    (hp1 : 1 ≤ p) (hpz : p ≤ F.mw) (hp : p < F.mw ∨ sem = .wrap) (hx : x.WF F)
    (hy : roundBinary sem F w x inp c r p = .ok y)
    (hfl : ((c.daz && inp') || (c.ftz && !inp')) = ((c.daz && inp) || (c.ftz && !inp))) :
    roundBinary sem F w y inp' c r p = .ok y := by
  obtain ⟨hem1, hem2, hrr, hcmin, hcap, hw, hew2, hinf⟩ := range_facts F w hF r p hr hr2 hpz
  by_cases hfin : x.Fin F
  · have hfin' : x.exp < F.expInf := by
      have := hx.1; unfold Bits.Fin Fmt.expInf at *; omega
    have hz : ∀ s, roundBinary sem F w (zeroBits s) inp' c r p = .ok (zeroBits s) := fun s =>
      roundBinary_zero sem F w hF (zeroBits s) inp' c r p hr hr2 ⟨rfl, rfl⟩
    by_cases h0 : x.mag F = 0
    · have hxz : x.isZero := (mag_eq_zero F x).1 h0
      have : roundBinary sem F w x inp c r p = .ok x :=
        roundBinary_zero sem F w hF x inp c r p hr hr2 hxz
      rw [this] at hy
      injection hy with hy; subst hy
      exact roundBinary_zero sem F w hF x inp' c r p hr hr2 hxz
    · have hrel := roundBinary_rel sem F w hF x inp c r p habs hr hr2 hp1 hpz (by tauto) hx hfin' h0
      rw [hrel] at hy
      injection hy with hy
      by_cases hf : ((c.daz && inp) || (c.ftz && !inp)) = true ∧ (x.exp : Int) - F.bias < Spec.emin r
      · have : y = zeroBits x.sign := by rw [← hy]; unfold relResult; rw [if_pos hf]
        rw [this]; exact hz _
      · have hfacts := relFacts F w hF x r p ((c.daz && inp) || (c.ftz && !inp)) hr hr2 hpz h0 hf
        rw [hy] at hfacts
        by_cases hzr : rndVal F r p x = 0
        · rw [hfacts.zero hzr]; exact hz _
        · by_cases hb : |rndVal F r p x| < 2 ^ (Spec.emax r + 1)
          · obtain ⟨hyf, hyv⟩ := hfacts.fin hb
            have hym := hfacts.mag hb
            have hys := hfacts.sign hzr
            have hy0 : y.mag F ≠ 0 := by rw [Ne, ← val_eq_zero, hyv]; exact hzr
            have hrv := rndVal_idem F w hF r p hr hr2 hpz x y h0 hys hym hy0
            -- the flush test gives the same answer
            have hf' : ¬ (((c.daz && inp') || (c.ftz && !inp')) = true ∧
                (y.exp : Int) - F.bias < Spec.emin r) := by
              rw [hfl]
              rintro ⟨k1, k2⟩
              apply hf
              refine ⟨k1, ?_⟩
              rw [below_emin F w hF r hr hr2 x hx h0]
              rw [below_emin F w hF r hr hr2 y hfacts.wf hy0] at k2
              by_contra hge
              rw [not_lt] at hge
              have huexp : F.uexp = 1 - (F.bias : Int) - F.mw := rfl
              have hemm : Spec.emin r = 1 - Spec.emax r := rfl
              have hK : ((p + cminOf F r p : ℕ) : ℤ) = Spec.emin r - F.uexp := by push_cast; omega
              rw [abs_val, mag_lt_pow F _ (Spec.emin r) (p + cminOf F r p) hK, hym] at k2
              rw [abs_val, ← not_lt, mag_lt_pow F _ (Spec.emin r) (p + cminOf F r p) hK, not_lt] at hge
              have := rnd_ge p (cminOf F r p) (x.mag F) (p + cminOf F r p) hge
                (by
                  have := (Nat.le_log2 h0).2 hge
                  omega)
              omega
            rw [roundBinary_rel sem F w hF y inp' c r p habs hr hr2 hp1 hpz (by tauto) hfacts.wf hyf hy0]
            have hfacts2 := relFacts F w hF y r p ((c.daz && inp') || (c.ftz && !inp')) hr hr2 hpz hy0 hf'
            congr 1
            apply mag_inj F hew2 _ _ hfacts2.wf hfacts.wf _ hyf
            · rw [hfacts2.sign (by rw [hrv]; exact hzr)]
            · rw [hfacts2.mag (by rw [hrv]; exact hb), hym, rnd_idem _ _ _ h0 (by rw [← hym]; exact hy0)]
            · exact (hfacts2.fin (by rw [hrv]; exact hb)).1
          · rw [hfacts.inf (not_lt.1 hb)]
            exact roundBinary_special sem F w _ inp' c r p rfl
  · have hsp : x.exp = F.expInf := by unfold Bits.Fin at hfin; omega
    rw [roundBinary_special sem F w x inp c r p hsp] at hy
    injection hy with hy; subst hy
    exact roundBinary_special sem F w x inp' c r p hsp

example : round32 .strict ⟨true, 127, 0x123456⟩ false relCtx 5 4 = .ok ⟨true, 127, 0x100000⟩ ∧
    round32 .strict ⟨true, 127, 0x100000⟩ false relCtx 5 4 = .ok ⟨true, 127, 0x100000⟩ := by
  decide +kernel

/-! ## C05 -/

theorem rndAll_eq (F : Fmt) (r p : Nat) (flush : Bool) (x : Bits) :
    rndAll F r p flush x = sgn x.sign *
      ((if x.mag F = 0 ∨ (flush = true ∧ (x.mag F : ℚ) * 2 ^ F.uexp < 2 ^ Spec.emin r) then 0
        else rnd p (cminOf F r p) (x.mag F) : ℕ) : ℚ) * 2 ^ F.uexp := by
  unfold rndAll rndVal
  rw [abs_val]
  simp only [val_eq_zero]
  split_ifs <;> simp

theorem rndAll_mono (F : Fmt) (r p : Nat) (flush : Bool) (x y : Bits) (h : x.val F ≤ y.val F) :
    rndAll F r p flush x ≤ rndAll F r p flush y := by
  rw [rndAll_eq, rndAll_eq]
  rw [val_eq_mag, val_eq_mag] at h
  have hu := u_pos F
  apply mul_le_mul_of_nonneg_right _ hu.le
  have h' : sgn x.sign * (x.mag F : ℚ) ≤ sgn y.sign * (y.mag F : ℚ) := le_of_mul_le_mul_right h hu
  -- monotone and nonnegative on magnitudes
  have hm : ∀ a b : ℕ, a ≤ b →
      (if a = 0 ∨ (flush = true ∧ (a : ℚ) * 2 ^ F.uexp < 2 ^ Spec.emin r) then 0
        else rnd p (cminOf F r p) a) ≤
      (if b = 0 ∨ (flush = true ∧ (b : ℚ) * 2 ^ F.uexp < 2 ^ Spec.emin r) then 0
        else rnd p (cminOf F r p) b) := by
    intro a b hab
    by_cases ha : a = 0 ∨ (flush = true ∧ (a : ℚ) * 2 ^ F.uexp < 2 ^ Spec.emin r)
    · rw [if_pos ha]; exact Nat.zero_le _
    · rw [if_neg ha, if_neg]
      · apply rnd_mono _ _ _ _ (by tauto) hab
      · rintro (hb | ⟨hb1, hb2⟩)
        · apply ha; left; omega
        · apply ha; right
          refine ⟨hb1, lt_of_le_of_lt ?_ hb2⟩
          apply mul_le_mul_of_nonneg_right _ hu.le
          exact_mod_cast hab
  generalize (fun a : ℕ => (if a = 0 ∨ (flush = true ∧ (a : ℚ) * 2 ^ F.uexp < 2 ^ Spec.emin r) then 0
        else rnd p (cminOf F r p) a)) = g at hm
  have hz : (if (0:ℕ) = 0 ∨ (flush = true ∧ ((0 : ℕ) : ℚ) * 2 ^ F.uexp < 2 ^ Spec.emin r) then 0
        else rnd p (cminOf F r p) 0) = 0 := by simp
  unfold sgn at *
  cases hxs : x.sign <;> cases hys : y.sign <;> simp only [hxs, hys, Bool.false_eq_true, if_true, if_false] at h' ⊢
  · have : x.mag F ≤ y.mag F := by exact_mod_cast (by linarith : (x.mag F : ℚ) ≤ y.mag F)
    have h3 := hm _ _ this
    have : ((_ : ℕ) : ℚ) ≤ ((_ : ℕ) : ℚ) := Nat.cast_le.2 h3
    linarith
  · have k1 : (0 : ℚ) ≤ x.mag F := by positivity
    have k2 : (0 : ℚ) ≤ y.mag F := by positivity
    have : x.mag F = 0 := by exact_mod_cast (by linarith : (x.mag F : ℚ) = 0)
    have : y.mag F = 0 := by exact_mod_cast (by linarith : (y.mag F : ℚ) = 0)
    simp [*]
  · have : ∀ a b : ℕ, (-1 : ℚ) * a ≤ 1 * b := by
      intro a b
      have : (0 : ℚ) ≤ a := by positivity
      have : (0 : ℚ) ≤ b := by positivity
      linarith
    exact this _ _
  · have : y.mag F ≤ x.mag F := by exact_mod_cast (by linarith : (y.mag F : ℚ) ≤ x.mag F)
    have h3 := hm _ _ this
    have : ((_ : ℕ) : ℚ) ≤ ((_ : ℕ) : ℚ) := Nat.cast_le.2 h3
    linarith

theorem rndAll_sign (F : Fmt) (r p : Nat) (flush : Bool) (x : Bits) :
    (0 < rndAll F r p flush x → x.sign = false) ∧ (rndAll F r p flush x < 0 → x.sign = true) := by
  rw [rndAll_eq]
  generalize (if x.mag F = 0 ∨ (flush = true ∧ (x.mag F : ℚ) * 2 ^ F.uexp < 2 ^ Spec.emin r) then 0
        else rnd p (cminOf F r p) (x.mag F) : ℕ) = n
  have hu := u_pos F
  have hn : (0 : ℚ) ≤ n * 2 ^ F.uexp := by positivity
  rw [mul_assoc]
  unfold sgn
  cases x.sign
  · exact ⟨fun _ => rfl, fun h => by simp at h; linarith⟩
  · exact ⟨fun h => by simp at h; linarith, fun _ => rfl⟩

/-- C05: rounding is monotone on finite inputs, the order of the results including
infinities. -/
theorem C05_monotone (sem : ShiftSem) (F : Fmt) (w : Nat) (hF : IsC F w) (x y x' y' : Bits)
    (inp : Bool) (c : Ctx) (r p : Nat) (habs : c.absErr = false) (hr : 2 ≤ r) (hr2 : r ≤ F.ew)
    (hp1 : 1 ≤ p) (hpz : p ≤ F.mw) (hp : p < F.mw ∨ sem = .wrap)
    (hx : x.WF F) (hfx : x.Fin F) (hy : y.WF F) (hfy : y.Fin F)
    (hx' : roundBinary sem F w x inp c r p = .ok x')
    (hy' : roundBinary sem F w y inp c r p = .ok y')
    (hle : x.val F ≤ y.val F) : Spec.FLe F x' y' := by
  obtain ⟨a, ha, hfa⟩ := roundBinary_all sem F w hF x inp c r p habs hr hr2 hp1 hpz hp hx hfx
  obtain ⟨b, hb, hfb⟩ := roundBinary_all sem F w hF y inp c r p habs hr hr2 hp1 hpz hp hy hfy
  rw [hx'] at ha; rw [hy'] at hb
  injection ha with ha; injection hb with hb
  subst ha; subst hb
  generalize ((c.daz && inp) || (c.ftz && !inp)) = fl at *
  have hm := rndAll_mono F r p fl x y hle
  have hpos : (0 : ℚ) < 2 ^ (Spec.emax r + 1) := by positivity
  by_cases h1 : |rndAll F r p fl x| < 2 ^ (Spec.emax r + 1)
  · by_cases h2 : |rndAll F r p fl y| < 2 ^ (Spec.emax r + 1)
    · right; right
      obtain ⟨f1, v1⟩ := hfa.fin h1
      obtain ⟨f2, v2⟩ := hfb.fin h2
      exact ⟨f1, f2, by rw [v1, v2]; exact hm⟩
    · right; left
      rw [not_lt] at h2
      have hi := hfb.inf h2
      have h3 := (abs_lt.1 h1).1
      have : 0 < rndAll F r p fl y := by
        rcases abs_cases (rndAll F r p fl y) with ⟨h, _⟩ | ⟨h, _⟩ <;> rw [h] at h2 <;> linarith
      rw [hi]
      exact ⟨⟨rfl, rfl⟩, (rndAll_sign F r p fl y).1 this⟩
  · rw [not_lt] at h1
    have hi := hfa.inf h1
    rcases abs_cases (rndAll F r p fl x) with ⟨h, _⟩ | ⟨h, _⟩
    · rw [h] at h1
      have h2 : 2 ^ (Spec.emax r + 1) ≤ |rndAll F r p fl y| := le_trans (by linarith) (le_abs_self _)
      right; left
      rw [hfb.inf h2]
      exact ⟨⟨rfl, rfl⟩, (rndAll_sign F r p fl y).1 (by linarith)⟩
    · rw [h] at h1
      left
      rw [hi]
      exact ⟨⟨rfl, rfl⟩, (rndAll_sign F r p fl x).2 (by linarith)⟩

/-- Two adjacent floats around a tie of a 3-bit format. -/
example : round32 .strict ⟨false, 127, 0x100000⟩ false relCtx 5 2 = .ok ⟨false, 127, 0⟩ ∧
    round32 .strict ⟨false, 127, 0x100001⟩ false relCtx 5 2 = .ok ⟨false, 127, 0x200000⟩ := by
  decide +kernel

/-! ## C06 -/

/-- C06 (special values): infinities and NaNs are returned bit for bit. -/
theorem C06_special_unchanged (sem : ShiftSem) (F : Fmt) (w : Nat) (x : Bits) (inp : Bool)
    (c : Ctx) (r : Nat) (p : Int) (h : ¬ x.Fin F) :
    roundBinary sem F w x inp c r p = .ok x :=
  roundBinary_special sem F w x inp c r p (by unfold Bits.Fin at h; omega)

/-- C06 (partial): the rounding of `-x` is the negation of the rounding of `x`, the
result is bit for bit the negation when it is not zero, its sign is the sign of the
input when it is not zero, and the sign of a zero input is kept.  Missing with respect
to C06: the sign of a zero result of a nonzero input, see `C06_zero_sign_lost`. -/
theorem C06_sign_symmetry_partial (sem : ShiftSem) (F : Fmt) (w : Nat) (hF : IsC F w) (x : Bits)
    (inp : Bool) (c : Ctx) (r p : Nat) (habs : c.absErr = false) (hr : 2 ≤ r) (hr2 : r ≤ F.ew)
    (hp1 : 1 ≤ p) (hpz : p ≤ F.mw) (hp : p < F.mw ∨ sem = .wrap) (hx : x.WF F) (hfin : x.Fin F) :
    ∃ y y', roundBinary sem F w x inp c r p = .ok y ∧
      roundBinary sem F w (fneg x) inp c r p = .ok y' ∧
      (y.isZero ∧ y'.isZero ∨ (y' = fneg y ∧ y.sign = x.sign)) ∧
      (x.isZero → y = x ∧ y' = fneg x) := by
  obtain ⟨hem1, hem2, hrr, hcmin, hcap, hw, hew2, hinf⟩ := range_facts F w hF r p hr hr2 hpz
  have hfin' : x.exp < F.expInf := by
    have := hx.1; unfold Bits.Fin Fmt.expInf at *; omega
  by_cases h0 : x.mag F = 0
  · have hxz : x.isZero := (mag_eq_zero F x).1 h0
    refine ⟨x, fneg x, roundBinary_zero sem F w hF x inp c r p hr hr2 hxz,
      roundBinary_zero sem F w hF (fneg x) inp c r p hr hr2 hxz, Or.inr ⟨rfl, rfl⟩, fun _ => ⟨rfl, rfl⟩⟩
  · have hmn : (fneg x).mag F = x.mag F := rfl
    refine ⟨_, _, roundBinary_rel sem F w hF x inp c r p habs hr hr2 hp1 hpz (by tauto) hx hfin' h0,
      roundBinary_rel sem F w hF (fneg x) inp c r p habs hr hr2 hp1 hpz (by tauto) hx hfin'
        (by rw [hmn]; exact h0), ?_, ?_⟩
    · generalize ((c.daz && inp) || (c.ftz && !inp)) = fl
      unfold relResult
      rw [hmn]
      have he : (fneg x).exp = x.exp := rfl
      rw [he]
      by_cases h1 : fl = true ∧ (x.exp : Int) - F.bias < Spec.emin r
      · rw [if_pos h1, if_pos h1]; exact Or.inl ⟨⟨rfl, rfl⟩, ⟨rfl, rfl⟩⟩
      · rw [if_neg h1, if_neg h1]
        by_cases h2 : 2 ^ capOf F r ≤ rnd p (cminOf F r p) (x.mag F)
        · rw [if_pos h2, if_pos h2]; exact Or.inr ⟨rfl, rfl⟩
        · rw [if_neg h2, if_neg h2]
          by_cases h3 : rnd p (cminOf F r p) (x.mag F) = 0
          · rw [if_pos h3, if_pos h3]; exact Or.inl ⟨⟨rfl, rfl⟩, ⟨rfl, rfl⟩⟩
          · rw [if_neg h3, if_neg h3]
            right
            unfold encode
            simp only
            split_ifs
            · exact ⟨rfl, rfl⟩
            · exact ⟨rfl, rfl⟩
    · intro hz; exact absurd ((mag_eq_zero F x).2 hz) h0

/-- C06 disagreement: a negative number that underflows to zero gives `+0`. -/
theorem C06_zero_sign_lost :
    ∃ x : Bits, x.WF b64 ∧ x.Fin b64 ∧ x.sign = true ∧ ¬ x.isZero ∧
      round64 .strict x false relCtx 5 10 = .ok (zeroBits false) :=
  ⟨⟨true, 900, 12345⟩, by decide +kernel⟩

/-! ## C07 -/

/-- C07 (disagreement): with the default precision and range every operation that
rounds a normal number performs a shift by a negative amount, undefined in C. -/
theorem C07_default_config_undefined (F : Fmt) (w : Nat) (hF : IsC F w) (x : Bits) (inp : Bool)
    (c : Ctx) (habs : c.absErr = false) (hx : x.WF F) (hfin : x.Fin F) (hn : 1 ≤ x.exp) :
    roundBinary .strict F w x inp c F.ew F.mw = .ub := by
  have hew : 2 ≤ F.ew := by rcases hF with ⟨rfl, _⟩ | ⟨rfl, _⟩ <;> decide
  obtain ⟨hem1, hem2, hrr, hcmin, hcap, hw, hew2, hinf⟩ := range_facts F w hF F.ew F.mw hew le_rfl le_rfl
  have hfin' : x.exp < F.expInf := by
    have := hx.1; unfold Bits.Fin Fmt.expInf at *; omega
  have hemax : Spec.emax F.ew = F.bias := by
    unfold Spec.emax Fmt.bias
    have : 0 < 2 ^ (F.ew - 1) := by positivity
    push_cast [this]; ring
  have hemm : Spec.emin F.ew = 1 - Spec.emax F.ew := rfl
  have hub : roundNormal .strict F w x F.mw = .ub := by
    have hneeds : needsRounding .strict F w x F.mw = .ub := by
      unfold needsRounding
      rw [cShl_one_in .strict w _ 0 (by simp) (by omega), cShr_in .strict w _ _ 0 (by simp) (by omega)]
      have : cShl .strict w 1 ((F.mw : Int) - F.mw - 1) = .ub := by
        unfold cShl; rw [if_neg (by omega)]
      rw [this]; rfl
    unfold roundNormal
    rw [hneeds, cShl_in .strict w _ _ 0 (by simp) (by omega)]
    simp only [Outcome.bind_ok, Outcome.bind_ub]
    split_ifs
    · unfold cShl
      split_ifs <;> rfl
    · rfl
  unfold roundBinary
  have hem : (2 : Int) ^ (F.ew - 1) - 1 = Spec.emax F.ew := rfl
  simp only [hem]
  rw [if_neg (by omega), ← hemm, hub]
  by_cases h1 : (x.exp : Int) - F.bias ≥ Spec.emax F.ew
  · rw [if_pos h1, if_pos (by omega)]; rfl
  · rw [if_neg h1]
    simp only [Outcome.bind_ok, Outcome.pure_eq]
    rw [if_neg (by simp), if_neg (by omega), if_neg (by simp [habs])]

/-- C07 (partial): on hardware where out-of-range shift counts are taken modulo the
word size, the default configuration (no flushing) returns every number bit for bit.
Missing with respect to C07: the C standard gives no meaning to these shifts, see
`C07_default_config_undefined`. -/
theorem C07_transparent_partial (F : Fmt) (w : Nat) (hF : IsC F w) (x : Bits) (inp : Bool)
    (c : Ctx) (habs : c.absErr = false) (hnf : ((c.daz && inp) || (c.ftz && !inp)) = false)
    (hx : x.WF F) :
    roundBinary .wrap F w x inp c F.ew F.mw = .ok x := by
  have hew : 2 ≤ F.ew := by rcases hF with ⟨rfl, _⟩ | ⟨rfl, _⟩ <;> decide
  have hmw1 : 1 ≤ F.mw := by rcases hF with ⟨rfl, _⟩ | ⟨rfl, _⟩ <;> decide
  obtain ⟨hem1, hem2, hrr, hcmin, hcap, hw, hew2, hinf⟩ := range_facts F w hF F.ew F.mw hew le_rfl le_rfl
  have hemax : Spec.emax F.ew = F.bias := by
    unfold Spec.emax Fmt.bias
    have : 0 < 2 ^ (F.ew - 1) := by positivity
    push_cast [this]; ring
  have hemm : Spec.emin F.ew = 1 - Spec.emax F.ew := rfl
  have huexp : F.uexp = 1 - (F.bias : Int) - F.mw := rfl
  by_cases hfin : x.Fin F
  · have hfin' : x.exp < F.expInf := by
      have := hx.1; unfold Bits.Fin Fmt.expInf at *; omega
    by_cases h0 : x.mag F = 0
    · exact roundBinary_zero .wrap F w hF x inp c F.ew F.mw hew le_rfl ((mag_eq_zero F x).1 h0)
    · rw [roundBinary_rel .wrap F w hF x inp c F.ew F.mw habs hew le_rfl hmw1 le_rfl (by tauto) hx hfin' h0]
      have hc0 : cminOf F F.ew F.mw = 0 := by omega
      have hrnd : rnd F.mw (cminOf F F.ew F.mw) (x.mag F) = x.mag F := by
        -- the magnitude is a significand times a power of two
        have hsig := sig_lt F x hx
        have := (rnd_nearest F.mw (cminOf F F.ew F.mw) (x.mag F) h0 (x.sig F) (x.exp - 1)
          (by simpa using (by exact_mod_cast hsig : ((x.sig F : ℕ) : ℤ) < 2 ^ (F.mw + 1))) (by omega)).1
        have e : ((x.sig F : ℤ) * 2 ^ (x.exp - 1)) = x.mag F := by unfold Bits.mag; push_cast; rfl
        rw [e, sub_self, abs_zero] at this
        have := abs_nonpos_iff.1 this
        omega
      unfold relResult
      rw [hnf, hrnd, if_neg (by simp), if_neg, if_neg h0, encode_mag F hew2 x hx hfin']
      have hl := mag_lt F hew2 x hx hfin'
      rw [← pow_add] at hl
      rw [not_le]
      exact lt_of_lt_of_le hl (Nat.pow_le_pow_right (by norm_num) (by omega))
  · exact roundBinary_special .wrap F w x inp c F.ew F.mw (by unfold Bits.Fin at hfin; omega)

example : round64 .wrap ⟨false, 0, 7⟩ false relCtx 11 52 = .ok ⟨false, 0, 7⟩ ∧
    round64 .wrap ⟨true, 1029, 12345⟩ false relCtx 11 52 = .ok ⟨true, 1029, 12345⟩ := by
  decide +kernel

end Verif.Vprec
