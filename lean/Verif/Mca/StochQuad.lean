import Verif.Mca.StochProps
import Verif.Ieee.CmpProps
import Verif.Float.Near
import Verif.Float.Conv

/-!
# Property C87: random rounding in the quad backend
-/

namespace Verif.Mca
open Verif Verif.Fp

/-- The number of the next pattern is one unit in the last place further. -/
theorem mag_pat_step (F : Fmt) (s : Bool) (p k : Nat) (h1 : (k + 1) * 2 ^ F.mw ≤ p) :
    (ofPat F s p).mag F + 2 ^ k ≤ (ofPat F s (p + 1)).mag F := by
  have hP : 0 < 2 ^ F.mw := by positivity
  obtain ⟨K, hK⟩ : ∃ K, p / 2 ^ F.mw = K + 1 := by
    have : k + 1 ≤ p / 2 ^ F.mw := (Nat.le_div_iff_mul_le hP).2 h1
    exact ⟨p / 2 ^ F.mw - 1, by omega⟩
  have hkK : k ≤ K := by
    have : k + 1 ≤ p / 2 ^ F.mw := (Nat.le_div_iff_mul_le hP).2 h1
    omega
  have hd := Nat.div_add_mod p (2 ^ F.mw)
  have hm := Nat.mod_lt p hP
  rw [hK] at hd
  obtain ⟨m, hm'⟩ : ∃ m, m = p % 2 ^ F.mw := ⟨_, rfl⟩
  rw [← hm'] at hd hm
  have e : p = K * 2 ^ F.mw + (2 ^ F.mw + m) := by rw [← hd]; ring
  have hle : 2 ^ F.mw + m + 1 ≤ 2 ^ (F.mw + 1) := by rw [pow_succ]; omega
  have a1 : (ofPat F s p).mag F = (2 ^ F.mw + m) * 2 ^ K := by
    rw [e]; exact mag_ofPat_enc _ _ _ _ (Or.inr (by omega)) (by omega)
  have a2 : (ofPat F s (p + 1)).mag F = (2 ^ F.mw + m + 1) * 2 ^ K := by
    rw [e, Nat.add_assoc]; exact mag_ofPat_enc _ _ _ _ (Or.inr (by omega)) hle
  have : 2 ^ k ≤ 2 ^ K := Nat.pow_le_pow_right (by norm_num) hkK
  rw [a1, a2, Nat.add_mul _ 1, Nat.one_mul]
  omega

theorem mag_pat_ge (F : Fmt) (s : Bool) (p k d : Nat) (h1 : (k + 1) * 2 ^ F.mw ≤ p) :
    (ofPat F s p).mag F + d * 2 ^ k ≤ (ofPat F s (p + d)).mag F := by
  induction d with
  | zero => simp
  | succ d ih =>
    have := mag_pat_step F s (p + d) k (by omega)
    rw [← Nat.add_assoc, Nat.add_mul, Nat.one_mul]
    omega

/-- The order of patterns from the order of magnitudes. -/
theorem pat_le_of_abs (F : Fmt) (x y : Bits) (hx : x.WF F) (hy : y.WF F) (h : |x.val F| ≤ |y.val F|) :
    x.pat F ≤ y.pat F := by
  by_contra hc
  have hl := Ieee.mag_lt_of_pat_lt F y x hy hx (by omega)
  rw [abs_val_mag, abs_val_mag] at h
  have := le_of_mul_le_mul_right h (zpow_pos (by norm_num) _)
  have : x.mag F ≤ y.mag F := by exact_mod_cast this
  omega

/-- What a wide pattern next to `lo` and `hi` rounds to. -/
theorem pat_rounds (T : Ty) (lo hi x : Bits) (h : Between T lo hi x) (s : Bool) (hs : s = x.sign) (m : Nat)
    (h1 : (lo.pat T.fmt + T.off * 2 ^ T.fmt.mw) * 2 ^ T.low < m + 2 ^ (T.low - 1))
    (h2 : m < (lo.pat T.fmt + T.off * 2 ^ T.fmt.mw + 1) * 2 ^ T.low + 2 ^ (T.low - 1)) :
    (m < (lo.pat T.fmt + T.off * 2 ^ T.fmt.mw) * 2 ^ T.low + 2 ^ (T.low - 1) →
      fconv T.wide T.fmt (ofPat T.wide s m) = lo) ∧
    ((lo.pat T.fmt + T.off * 2 ^ T.fmt.mw) * 2 ^ T.low + 2 ^ (T.low - 1) < m →
      fconv T.wide T.fmt (ofPat T.wide s m) = hi) ∧
    (fconv T.wide T.fmt (ofPat T.wide s m) = lo ∨ fconv T.wide T.fmt (ofPat T.wide s m) = hi) := by
  obtain ⟨hmw, -, hF1, hL1, hL64, -, -, -, hei⟩ := ty_facts T
  obtain ⟨q, hq⟩ : ∃ q, q = lo.pat T.fmt + T.off * 2 ^ T.fmt.mw := ⟨_, rfl⟩
  have hmin' := h.min
  have hW : 0 < 2 ^ T.wide.mw := by positivity
  have hP : 2 ^ T.wide.mw = 2 ^ T.fmt.mw * 2 ^ T.low := by rw [hmw, pow_add]
  have hLp : 2 ^ T.low = 2 * 2 ^ (T.low - 1) := by rw [← pow_succ']; congr 1; omega
  have hpos : 0 < 2 ^ (T.low - 1) := by positivity
  have hlt : lo.pat T.fmt < T.fmt.expInf * 2 ^ T.fmt.mw := by
    unfold Bits.pat
    have : (lo.exp + 1) * 2 ^ T.fmt.mw ≤ T.fmt.expInf * 2 ^ T.fmt.mw := Nat.mul_le_mul_right _ h.fin
    have := h.wflo.2
    rw [Nat.add_mul] at *
    omega
  have hmin : (T.off + 1) * 2 ^ T.wide.mw ≤ m := by
    have a1 : (2 ^ T.fmt.mw + 1 + T.off * 2 ^ T.fmt.mw) * 2 ^ T.low ≤
        (lo.pat T.fmt + T.off * 2 ^ T.fmt.mw) * 2 ^ T.low := Nat.mul_le_mul_right _ (by omega)
    have a2 : (2 ^ T.fmt.mw + 1 + T.off * 2 ^ T.fmt.mw) * 2 ^ T.low = (T.off + 1) * 2 ^ T.wide.mw + 2 ^ T.low := by
      rw [hP]; ring
    omega
  have hmax : m < T.wide.expInf * 2 ^ T.wide.mw := by
    have a1 : (lo.pat T.fmt + T.off * 2 ^ T.fmt.mw + 1) * 2 ^ T.low ≤
        (T.fmt.expInf * 2 ^ T.fmt.mw + T.off * 2 ^ T.fmt.mw) * 2 ^ T.low := Nat.mul_le_mul_right _ (by omega)
    have a2 : (T.fmt.expInf * 2 ^ T.fmt.mw + T.off * 2 ^ T.fmt.mw) * 2 ^ T.low =
        (T.off + T.fmt.expInf) * 2 ^ T.wide.mw := by rw [hP]; ring
    have a3 : (T.off + T.fmt.expInf) * 2 ^ T.wide.mw + 2 ^ T.wide.mw ≤ T.wide.expInf * 2 ^ T.wide.mw := by
      rw [← Nat.succ_mul]; exact Nat.mul_le_mul_right _ (by omega)
    have a4 : 2 ^ (T.low - 1) ≤ 2 ^ T.wide.mw := Nat.pow_le_pow_right (by norm_num) (by omega)
    omega
  have hy1 : T.off + 1 ≤ (ofPat T.wide s m).exp := (Nat.le_div_iff_mul_le hW).2 hmin
  have hy2 : (ofPat T.wide s m).exp < T.wide.expInf := (Nat.div_lt_iff_lt_mul hW).2 hmax
  have hywf : (ofPat T.wide s m).WF T.wide := by
    refine ⟨lt_of_lt_of_le hy2 ?_, Nat.mod_lt _ hW⟩
    unfold Fmt.expInf; exact Nat.sub_le _ _
  obtain ⟨p, p1, p2⟩ := fconv_pat T _ hywf hy1 hy2
  rw [pat_ofPat] at p1
  have hsgn : (ofPat T.wide s m).sign = x.sign := hs
  rw [hsgn] at p2
  rw [p2]
  have Clo : rneShift m T.low = q →
      (if p < T.fmt.expInf * 2 ^ T.fmt.mw then ofPat T.fmt x.sign p else infBits T.fmt x.sign) = lo := by
    intro e
    have : p = lo.pat T.fmt := by omega
    rw [this, if_pos hlt, ← h.sign]
    exact ofPat_pat T.fmt lo h.wflo.2
  have Chi : rneShift m T.low = q + 1 →
      (if p < T.fmt.expInf * 2 ^ T.fmt.mw then ofPat T.fmt x.sign p else infBits T.fmt x.sign) = hi := by
    intro e
    have hpl : p = lo.pat T.fmt + 1 := by omega
    by_cases hc2 : p < T.fmt.expInf * 2 ^ T.fmt.mw
    · rw [if_pos hc2, hpl, ← h.succ]
    · have hq : lo.pat T.fmt + 1 = T.fmt.expInf * 2 ^ T.fmt.mw + 0 := by omega
      rw [if_neg hc2, h.succ, hq, ofPat_mk _ _ _ _ (by positivity)]
      rfl
  rw [← hq] at h1 h2 ⊢
  have hLz : (2 : ℤ) ^ T.low = 2 * ((2 ^ (T.low - 1) : ℕ) : ℤ) := by
    exact_mod_cast hLp
  have Rlo : m < q * 2 ^ T.low + 2 ^ (T.low - 1) → rneShift m T.low = q := by
    intro h3
    apply rneShift_near
    rw [hLp] at h1 h3
    rw [hLz]
    generalize 2 ^ (T.low - 1) = H at *
    have e : |(m : ℤ) - q * (2 * (H : ℤ))| < H := by
      rw [abs_lt]
      zify at h1 h3
      constructor <;> linarith
    linarith
  have Rhi : q * 2 ^ T.low + 2 ^ (T.low - 1) < m → rneShift m T.low = q + 1 := by
    intro h3
    apply rneShift_near
    rw [hLp] at h2 h3
    rw [hLz]
    generalize 2 ^ (T.low - 1) = H at *
    have e : |(m : ℤ) - ((q + 1 : ℕ) : ℤ) * (2 * (H : ℤ))| < H := by
      rw [abs_lt]
      zify at h2 h3 ⊢
      constructor <;> linarith
    linarith
  refine ⟨fun h3 => Clo (Rlo h3), fun h3 => Chi (Rhi h3), ?_⟩
  rcases lt_trichotomy m (q * 2 ^ T.low + 2 ^ (T.low - 1)) with h3 | h3 | h3
  · exact Or.inl (Clo (Rlo h3))
  · have hb := rneShift_bounds m T.low
    have hd : m / 2 ^ T.low = q := by
      rw [h3]
      exact (div_mod_of _ (2 ^ T.low) q (2 ^ (T.low - 1)) (by omega) rfl).1
    rw [hd] at hb
    rcases Nat.lt_or_ge (rneShift m T.low) (q + 1) with h4 | h4
    · exact Or.inl (Clo (by omega))
    · exact Or.inr (Chi (by omega))
  · exact Or.inr (Chi (Rhi h3))

theorem encode_sign' (F : Fmt) (s : Bool) (n j : Nat) : (encode F s n j).sign = s := by
  unfold encode
  simp only
  split_ifs <;> rfl

/-- A sum dominated by its first term: well formed, with the sign of that term. -/
theorem fadd_dominated (F : Fmt) (x z : Bits) (hx : x.Fin F) (hz : z.Fin F) (h : |z.val F| < |x.val F|) :
    (fadd F x z).WF F ∧ (fadd F x z).sign = x.sign := by
  have hu : (0 : ℚ) < 2 ^ F.uexp := zpow_pos (by norm_num) _
  have key : |z.imag F| < |x.imag F| := by
    rw [val_eq_imag, val_eq_imag, abs_mul, abs_mul, abs_of_pos hu] at h
    have := lt_of_mul_lt_mul_right h hu.le
    exact_mod_cast this
  have hs : x.imag F = if x.sign then -(x.mag F : ℤ) else x.mag F := rfl
  have hne : x.imag F + z.imag F ≠ 0 := by
    intro h0
    have : x.imag F = -z.imag F := by omega
    rw [this, abs_neg] at key
    exact lt_irrefl _ key
  rw [fadd_fin hx hz, if_neg hne]
  refine ⟨(encode_wf F _ _ 0).1, ?_⟩
  rw [encode_sign']
  cases hxs : x.sign
  · rw [hxs] at hs
    simp only [Bool.false_eq_true, if_false] at hs
    rw [decide_eq_false_iff_not, not_lt]
    rw [hs, abs_of_nonneg (Int.natCast_nonneg _), abs_lt] at key
    omega
  · rw [hxs] at hs
    simp only [if_true] at hs
    rw [decide_eq_true_iff]
    rw [hs, abs_neg, abs_of_nonneg (Int.natCast_nonneg _), abs_lt] at key
    omega

/-- Where a draw moves a number to, in units in the last place of the wide type from `lo`. -/
def landing (T : Ty) (x : Bits) (f : Nat) (w : BitVec 64) : ℚ :=
  f + sgn x.sign * ((drawn w : ℚ) / 2 ^ 52 - 1 / 2) * 2 ^ T.low

theorem sgn_cases (s : Bool) : sgn s = 1 ∨ sgn s = -1 := by cases s <;> simp [sgn]

/-- The pattern of the perturbed number against that of a number of the format. -/
theorem quad_pat (T : Ty) (lo x : Bits) (wfx : x.WF T.wide) (finx : x.Fin T.wide) (wflo : lo.WF T.fmt)
    (hl1 : 1 ≤ lo.exp) (hman : lo.man ≠ 0) (f : Nat) (h1 : f < 2 ^ T.low)
    (hp : x.pat T.wide = (lo.pat T.fmt + T.off * 2 ^ T.fmt.mw) * 2 ^ T.low + f)
    (e1 : T.off + 1 ≤ x.exp) (e2 : x.exp < T.off + T.fmt.expInf) (w : BitVec 64) (hw : drawn w ≠ 2 ^ 51)
    (y : Bits) (hy : y = fadd T.wide x (quadNoise T.wide (getExp T.wide x - (((T.fmt.mw + 1 : ℕ) : ℤ) - 1)) w)) :
    y.WF T.wide ∧ y.sign = x.sign ∧
    (∀ j : ℤ, -(2 : ℤ) ^ (T.low - 1) ≤ j → j ≤ 2 ^ T.low → (j : ℚ) ≤ landing T x f w →
      ((lo.pat T.fmt + T.off * 2 ^ T.fmt.mw) * 2 ^ T.low : ℕ) + j ≤ y.pat T.wide) ∧
    (∀ j : ℕ, j ≤ 2 ^ T.low + 2 ^ (T.low - 1) → landing T x f w ≤ (j : ℚ) →
      y.pat T.wide ≤ (lo.pat T.fmt + T.off * 2 ^ T.fmt.mw) * 2 ^ T.low + j) := by
  obtain ⟨hmw, hbias, hF1, hL1, hL64, -, -, hu, hei⟩ := ty_facts T
  have hF : Wide T.wide := by cases T; exact Or.inl rfl; exact Or.inr rfl
  obtain ⟨hb53, hew, hmw52, hinf, -⟩ := wide_bias T.wide hF
  have hP : 2 ^ T.wide.mw = 2 ^ T.fmt.mw * 2 ^ T.low := by rw [hmw, pow_add]
  have hW : 0 < 2 ^ T.wide.mw := by positivity
  have hM : 0 < 2 ^ T.fmt.mw := by positivity
  have hLp : 2 ^ T.low = 2 * 2 ^ (T.low - 1) := by rw [← pow_succ']; congr 1; omega
  have hHpos : 0 < 2 ^ (T.low - 1) := by positivity
  obtain ⟨k, hk⟩ : ∃ k, lo.exp = k + 1 := ⟨lo.exp - 1, by omega⟩
  obtain ⟨K, hK⟩ : ∃ K, K = k + T.off := ⟨_, rfl⟩
  obtain ⟨r, hr⟩ : ∃ r, r = 2 ^ T.fmt.mw + lo.man := ⟨_, rfl⟩
  have hr1 : 2 ^ T.fmt.mw + 1 ≤ r := by omega
  have hr2 : r + 1 ≤ 2 ^ (T.fmt.mw + 1) := by
    have := wflo.2; rw [pow_succ]; omega
  obtain ⟨B, hB⟩ : ∃ B, B = (lo.pat T.fmt + T.off * 2 ^ T.fmt.mw) * 2 ^ T.low := ⟨_, rfl⟩
  have hBK : B = K * 2 ^ T.wide.mw + r * 2 ^ T.low := by
    rw [hB, hP, hK, hr]; unfold Bits.pat; rw [hk]; ring
  rw [← hB] at hp ⊢
  have hrW : 2 ^ T.wide.mw + 2 ^ T.low ≤ r * 2 ^ T.low := by
    rw [hP]
    calc _ = (2 ^ T.fmt.mw + 1) * 2 ^ T.low := by ring
      _ ≤ _ := Nat.mul_le_mul_right _ hr1
  have hrW2 : r * 2 ^ T.low + 2 ^ T.low ≤ 2 ^ (T.wide.mw + 1) := by
    rw [hmw, show T.fmt.mw + T.low + 1 = T.fmt.mw + 1 + T.low by ring, pow_add]
    calc _ = (r + 1) * 2 ^ T.low := by ring
      _ ≤ _ := Nat.mul_le_mul_right _ hr2
  -- the value of a pattern
  have hmag : ∀ (s : Bool) (c : ℕ), 2 ^ T.wide.mw ≤ c → c ≤ 2 ^ (T.wide.mw + 1) →
      (ofPat T.wide s (K * 2 ^ T.wide.mw + c)).mag T.wide = c * 2 ^ K := fun s c c1 c2 =>
    mag_ofPat_enc _ _ _ _ (Or.inr c1) c2
  have hxm : x.mag T.wide = (r * 2 ^ T.low + f) * 2 ^ K := by
    have := ofPat_pat T.wide x wfx.2
    rw [← this, hp, hBK, Nat.add_assoc]
    exact hmag _ _ (by omega) (by omega)
  have hxe : x.exp = K + 1 := by
    have hd := (div_mod_of (x.pat T.wide) (2 ^ T.wide.mw) x.exp x.man wfx.2 rfl).1
    have hd2 := (div_mod_of (x.pat T.wide) (2 ^ T.wide.mw) (K + 1) (r * 2 ^ T.low + f - 2 ^ T.wide.mw)
      (by rw [pow_succ] at hrW2; omega) (by rw [hp, hBK, Nat.add_mul]; omega)).1
    omega
  obtain ⟨V, hV⟩ : ∃ V : ℚ, V = 2 ^ K * 2 ^ T.wide.uexp := ⟨_, rfl⟩
  have hVpos : 0 < V := by rw [hV]; exact mul_pos (by positivity) (zpow_pos (by norm_num) _)
  have hxv : |x.val T.wide| = (r * 2 ^ T.low + f) * V := by
    rw [abs_val_mag, hxm, hV]; push_cast; ring
  have hxv' : x.val T.wide = sgn x.sign * ((r * 2 ^ T.low + f) * V) := by
    rw [val_eq_mag, hxm, hV]; push_cast; ring
  -- the noise
  have hex : getExp T.wide x - (((T.fmt.mw + 1 : ℕ) : ℤ) - 1) = (K : ℤ) + 1 - T.wide.bias - T.fmt.mw := by
    unfold getExp; rw [hxe]; push_cast; ring
  have hbF : 53 ≤ T.off ∧ T.fmt.mw + 1 + 53 ≤ T.off + T.fmt.bias + 0 ∧ T.fmt.expInf = 2 * T.fmt.bias + 1 := by
    cases T <;> decide
  have hlo53 : T.fmt.mw + 53 ≤ T.off + 1 := by cases T <;> decide
  obtain ⟨q1, q2, q3, q4⟩ := C21_noise_partial T.wide hF ((K : ℤ) + 1 - T.wide.bias - T.fmt.mw) w hw
    (by omega) (by omega)
  have hC := (C21_bound_partial T.wide hF (T.fmt.mw + 1) (by omega) w hw x wfx (by omega)
    ((x.exp : ℤ) - T.wide.bias) rfl (by push_cast; omega) (by omega)).2.1
  rw [hex] at hy hC
  generalize quadNoise T.wide ((K : ℤ) + 1 - T.wide.bias - T.fmt.mw) w = z at *
  have hscale : (2 : ℚ) ^ ((K : ℤ) + 1 - T.wide.bias - T.fmt.mw) = 2 ^ T.low * V := by
    rw [hV, ← zpow_natCast 2 T.low, ← zpow_natCast 2 K, ← zpow_add₀ (by norm_num), ← zpow_add₀ (by norm_num)]
    congr 1
    unfold Fmt.uexp
    push_cast [hmw]
    ring
  have hzv : z.val T.wide = ((drawn w : ℚ) / 2 ^ 52 - 1 / 2) * 2 ^ T.low * V := by
    rw [q3, rand01_eq, hscale]; ring
  obtain ⟨δ, hδ⟩ : ∃ δ : ℚ, δ = (drawn w : ℚ) / 2 ^ 52 - 1 / 2 := ⟨_, rfl⟩
  have hδ1 : -(1 / 2) ≤ δ := by
    rw [hδ]; have : (0 : ℚ) ≤ (drawn w : ℚ) / 2 ^ 52 := by positivity
    linarith
  have hδ2 : δ ≤ 1 / 2 := by
    have hl := drawn_lt w
    have hl' : (drawn w : ℚ) < 2 ^ 52 := by exact_mod_cast hl
    have : (drawn w : ℚ) / 2 ^ 52 ≤ 1 := by rw [div_le_one (by positivity)]; exact hl'.le
    rw [hδ]; linarith
  have hland : landing T x f w = f + sgn x.sign * δ * 2 ^ T.low := by unfold landing; rw [hδ]
  rw [← hδ] at hzv
  obtain ⟨a, ha⟩ : ∃ a : ℚ, a = landing T x f w := ⟨_, rfl⟩
  rw [← ha]
  rw [← ha] at hland
  have hLq : (0 : ℚ) < 2 ^ T.low := by positivity
  have hrq : (2 : ℚ) * 2 ^ T.low ≤ r * 2 ^ T.low := by
    have : 2 ≤ r := by omega
    have : (2 : ℚ) ≤ r := by exact_mod_cast this
    nlinarith
  have hσδ : -(1 / 2) ≤ sgn x.sign * δ ∧ sgn x.sign * δ ≤ 1 / 2 := by
    rcases sgn_cases x.sign with e | e <;> rw [e] <;> constructor <;> linarith
  have hf0 : (0 : ℚ) ≤ f := by positivity
  have ha1 : -(2 ^ T.low : ℚ) / 2 ≤ a := by rw [hland]; nlinarith [hσδ.1]
  have hsum : x.val T.wide + z.val T.wide = sgn x.sign * ((r * 2 ^ T.low + a) * V) := by
    rw [hxv', hzv, hland]
    rcases sgn_cases x.sign with e | e <;> rw [e] <;> ring
  have hsa : |x.val T.wide + z.val T.wide| = (r * 2 ^ T.low + a) * V := by
    have h1 : |sgn x.sign| = 1 := by rcases sgn_cases x.sign with e | e <;> rw [e] <;> norm_num
    rw [hsum, abs_mul, h1, one_mul, abs_of_nonneg]
    apply mul_nonneg _ hVpos.le
    linarith
  have hdom : |z.val T.wide| < |x.val T.wide| := by
    rw [hzv, hxv, abs_mul, abs_of_pos hVpos]
    apply mul_lt_mul_of_pos_right _ hVpos
    rw [abs_mul, abs_of_pos hLq]
    have : |δ| ≤ 1 / 2 := abs_le.2 ⟨hδ1, hδ2⟩
    nlinarith
  obtain ⟨y1, y2⟩ := fadd_dominated T.wide x z finx q2 hdom
  rw [← hy] at y1 y2 hC
  have hexp : T.wide.expInf + 1 = 2 ^ T.wide.ew := by
    have : 0 < 2 ^ T.wide.ew := by positivity
    unfold Fmt.expInf; omega
  have hye : y.exp < T.wide.expInf := by
    have : y.exp < 2 ^ T.wide.ew := y1.1
    unfold Bits.Fin at hC
    omega
  have hmono := fun t ht => fadd_mono T.wide x z finx q2 (by rw [← hy]; exact hye) t ht
  rw [← hy, hsa] at hmono
  have hwf : ∀ m, m < (K + 4) * 2 ^ T.wide.mw → (ofPat T.wide x.sign m).WF T.wide := by
    intro m hm
    refine ⟨?_, Nat.mod_lt _ hW⟩
    have : m / 2 ^ T.wide.mw < K + 4 := (Nat.div_lt_iff_lt_mul hW).2 hm
    show m / 2 ^ T.wide.mw < _
    omega
  refine ⟨y1, y2, ?_, ?_⟩
  · intro j j1 j2 hj
    have hz : (2 : ℤ) ^ (T.low - 1) = ((2 ^ (T.low - 1) : ℕ) : ℤ) := by push_cast; rfl
    have hz2 : (2 : ℤ) ^ T.low = ((2 ^ T.low : ℕ) : ℤ) := by push_cast; rfl
    rw [hz] at j1
    rw [hz2] at j2
    obtain ⟨c, hc⟩ : ∃ c : ℕ, (c : ℤ) = ((r * 2 ^ T.low : ℕ) : ℤ) + j :=
      ⟨(((r * 2 ^ T.low : ℕ) : ℤ) + j).toNat, Int.toNat_of_nonneg (by omega)⟩
    have hcW : c ≤ 2 ^ (T.wide.mw + 1) := by omega
    have ht := hmag x.sign c (by omega) hcW
    have hwft := hwf (K * 2 ^ T.wide.mw + c) (by rw [pow_succ] at hcW; rw [Nat.add_mul]; omega)
    have hcq : (c : ℚ) = r * 2 ^ T.low + j := by exact_mod_cast hc
    have h2 := (hmono _ hwft).1 (by
      have e : |(ofPat T.wide x.sign (K * 2 ^ T.wide.mw + c)).val T.wide| = c * V := by
        rw [abs_val_mag, ht, hV]; push_cast; ring
      rw [e, hcq]
      exact mul_le_mul_of_nonneg_right (by linarith) hVpos.le)
    have h3 := pat_le_of_abs T.wide _ _ hwft y1 h2
    rw [pat_ofPat] at h3
    omega
  · intro j hj1 hj2
    have hwft := hwf (B + j) (by rw [pow_succ] at hrW2; rw [Nat.add_mul, hBK]; omega)
    have hge := mag_pat_ge T.wide x.sign B K j (by rw [hBK, Nat.add_mul]; omega)
    have hB0 : (ofPat T.wide x.sign B).mag T.wide = r * 2 ^ T.low * 2 ^ K := by
      rw [hBK]; exact hmag _ _ (by omega) (by omega)
    rw [hB0] at hge
    have hge' : ((r : ℚ) * 2 ^ T.low + j) * 2 ^ K ≤ (ofPat T.wide x.sign (B + j)).mag T.wide := by
      rw [add_mul]; exact_mod_cast hge
    have h2 := (hmono _ hwft).2 (by
      rw [abs_val_mag, hV, ← mul_assoc]
      apply mul_le_mul_of_nonneg_right _ (zpow_pos (by norm_num) _).le
      refine le_trans ?_ hge'
      apply mul_le_mul_of_nonneg_right _ (by positivity)
      linarith)
    have h3 := pat_le_of_abs T.wide _ _ y1 hwft h2
    rwa [pat_ofPat] at h3

/-- What a draw, one half excepted, makes of a number between `lo` and `hi`. -/
theorem quad_rounds (T : Ty) (lo hi x : Bits) (h : Between T lo hi x) (hman : lo.man ≠ 0) (f : Nat)
    (h0 : 0 < f) (h1 : f < 2 ^ T.low)
    (hp : x.pat T.wide = (lo.pat T.fmt + T.off * 2 ^ T.fmt.mw) * 2 ^ T.low + f)
    (e1 : T.off + 1 ≤ x.exp) (e2 : x.exp < T.off + T.fmt.expInf) (w : BitVec 64) (hw : drawn w ≠ 2 ^ 51)
    (y : Bits) (hy : y = fadd T.wide x (quadNoise T.wide (getExp T.wide x - (((T.fmt.mw + 1 : ℕ) : ℤ) - 1)) w)) :
    (landing T x f w ≤ 2 ^ (T.low - 1) - 1 → fconv T.wide T.fmt y = lo) ∧
    (2 ^ (T.low - 1) + 1 ≤ landing T x f w → fconv T.wide T.fmt y = hi) ∧
    (fconv T.wide T.fmt y = lo ∨ fconv T.wide T.fmt y = hi) := by
  obtain ⟨-, -, -, hL1, -, -, -, -, -⟩ := ty_facts T
  have hl1 : 1 ≤ lo.exp := by
    by_contra hz
    have h0 : lo.exp = 0 := by omega
    have hmin := h.min
    unfold Bits.pat at hmin
    rw [h0] at hmin
    have := h.wflo.2
    omega
  obtain ⟨y1, y2, y3, y4⟩ := quad_pat T lo x h.wfx h.finx h.wflo hl1 hman f h1 hp e1 e2 w hw y hy
  have hLp : 2 ^ T.low = 2 * 2 ^ (T.low - 1) := by rw [← pow_succ']; congr 1; omega
  have hLq : (2 : ℚ) ^ T.low = 2 * 2 ^ (T.low - 1) := by exact_mod_cast hLp
  have hLz : (2 : ℤ) ^ T.low = 2 * 2 ^ (T.low - 1) := by exact_mod_cast hLp
  have hHz : (2 : ℤ) ^ (T.low - 1) = ((2 ^ (T.low - 1) : ℕ) : ℤ) := by push_cast; rfl
  have hHq : (2 : ℚ) ^ (T.low - 1) = ((2 ^ (T.low - 1) : ℕ) : ℚ) := by push_cast; rfl
  have hHpos : 0 < 2 ^ (T.low - 1) := by positivity
  obtain ⟨H, hH⟩ : ∃ H : ℕ, H = 2 ^ (T.low - 1) := ⟨_, rfl⟩
  rw [← hH] at hLp hHz hHq hHpos
  rw [hHz] at hLz
  rw [hHq] at hLq
  have hδ1 : -(1 / 2 : ℚ) ≤ (drawn w : ℚ) / 2 ^ 52 - 1 / 2 := by
    have : (0 : ℚ) ≤ (drawn w : ℚ) / 2 ^ 52 := by positivity
    linarith
  have hδ2 : (drawn w : ℚ) / 2 ^ 52 - 1 / 2 ≤ 1 / 2 := by
    have hl := drawn_lt w
    have hl' : (drawn w : ℚ) < 2 ^ 52 := by exact_mod_cast hl
    have : (drawn w : ℚ) / 2 ^ 52 ≤ 1 := by rw [div_le_one (by positivity)]; exact hl'.le
    linarith
  have hHq0 : (0 : ℚ) < H := by exact_mod_cast hHpos
  have hl1 : ((f : ℤ) - H : ℤ) ≤ landing T x f w := by
    unfold landing
    rw [hLq]
    push_cast
    rcases sgn_cases x.sign with e | e <;> rw [e] <;> nlinarith
  have hl2 : landing T x f w ≤ ((f + H : ℕ) : ℚ) := by
    unfold landing
    rw [hLq]
    push_cast
    rcases sgn_cases x.sign with e | e <;> rw [e] <;> nlinarith
  obtain ⟨B, hB⟩ : ∃ B, B = (lo.pat T.fmt + T.off * 2 ^ T.fmt.mw) * 2 ^ T.low := ⟨_, rfl⟩
  have hB1 : (lo.pat T.fmt + T.off * 2 ^ T.fmt.mw + 1) * 2 ^ T.low = B + 2 * H := by rw [hB, ← hLp]; ring
  have hpr := pat_rounds T lo hi x h y.sign y2 (y.pat T.wide)
  rw [ofPat_pat T.wide y y1.2, hB1, ← hB, ← hH] at hpr
  rw [← hB, hHz, hLz] at y3
  rw [← hB, hLp, ← hH] at y4
  rw [hHq]
  have b1 := y3 (f - H) (by omega) (by omega) hl1
  have b2 := y4 (f + H) (by omega) hl2
  obtain ⟨r1, r2, r3⟩ := hpr (by omega) (by omega)
  refine ⟨fun hl => r1 ?_, fun hl => r2 ?_, r3⟩
  · have := y4 (H - 1) (by omega) (by rw [Nat.cast_sub hHpos]; exact_mod_cast hl)
    omega
  · have := y3 (H + 1) (by omega) (by omega) (by exact_mod_cast hl)
    omega

/-! ## Counting draws -/

theorem count_le_of (p q : Nat → Prop) [DecidablePred p] [DecidablePred q] (n : Nat) (h : ∀ i < n, p i → q i) :
    Nat.count p n ≤ Nat.count q n := by
  rw [Nat.count_eq_card_filter_range, Nat.count_eq_card_filter_range]
  apply Finset.card_le_card
  intro i hi
  rw [Finset.mem_filter] at hi ⊢
  exact ⟨hi.1, h i (Finset.mem_range.1 hi.1) hi.2⟩

theorem count_or_le (p q : Nat → Prop) [DecidablePred p] [DecidablePred q] (n : Nat) :
    Nat.count (fun i => p i ∨ q i) n ≤ Nat.count p n + Nat.count q n := by
  rw [Nat.count_eq_card_filter_range, Nat.count_eq_card_filter_range, Nat.count_eq_card_filter_range,
    Finset.filter_or]
  exact Finset.card_union_le _ _

/-- Over a period, the draws whose integer satisfies `q`. -/
theorem count_drawn (s : Rng.St) (h0 : s ≠ ⟨0, 0⟩) (q : Nat → Prop) [DecidablePred q] :
    ∃ d ≤ 1, Nat.count (fun k => q (drawn (Rng.output (Rng.next^[k] s)))) Rng.N + d = 2 ^ 76 * Nat.count q (2 ^ 52) := by
  have h := Rng.count_words s h0 (fun w => q (drawn w))
  have hc : Nat.count (fun n => q (drawn (BitVec.ofNat 64 n))) (2 ^ 64) = Nat.count (fun n => q (n / 2 ^ 12)) (2 ^ 64) := by
    apply count_congr
    intro i hi
    unfold drawn
    rw [BitVec.toNat_ofNat, Nat.mod_eq_of_lt hi]
  have hd := count_div (2 ^ 52) (2 ^ 12) (by positivity) q
  rw [← pow_add] at hd
  rw [hc, hd, ← mul_assoc, ← pow_add] at h
  refine ⟨_, ?_, h⟩
  split_ifs <;> omega

theorem count_lt (c n : Nat) : Nat.count (fun i => i < c) n = min n c := by
  induction n with
  | zero => simp
  | succ n ih =>
    rw [Nat.count_succ, ih]
    split_ifs <;> omega

/-- The integers that reach a proportion from above or from below. -/
def reach (s : Bool) (D P g j : Nat) : Prop := if s then j * P ≤ D * g else D * P ≤ j * P + D * g

instance (s : Bool) (D P g : Nat) : DecidablePred (reach s D P g) := fun j => by
  unfold reach; infer_instance

/-- They are a proportion of `g / P`, up to one. -/
theorem count_reach (s : Bool) (D P g : Nat) (hP : 0 < P) (hg : g ≤ P) :
    D * g ≤ Nat.count (reach s D P g) D * P + P ∧ Nat.count (reach s D P g) D * P ≤ D * g + P := by
  cases s
  · obtain ⟨g', hg'⟩ : ∃ g', P = g + g' := ⟨P - g, by omega⟩
    have hc : Nat.count (reach false D P g) D = D - (D * g' + P - 1) / P := by
      rw [← count_ge]
      apply count_congr
      intro j _
      unfold reach
      rw [if_neg (by simp), Nat.div_le_iff_le_mul_add_pred hP]
      have : D * P = D * g + D * g' := by rw [hg', mul_add]
      rw [mul_comm j P]
      omega
    rw [hc]
    obtain ⟨u, hu⟩ : ∃ u, u = (D * g' + P - 1) / P := ⟨_, rfl⟩
    have hd := Nat.div_add_mod (D * g' + P - 1) P
    have hm := Nat.mod_lt (D * g' + P - 1) hP
    rw [← hu] at hd ⊢
    have hDP : D * P = D * g + D * g' := by rw [hg', mul_add]
    have huD : u ≤ D := by
      by_contra hn
      have : P * (D + 1) ≤ P * u := Nat.mul_le_mul_left _ (by omega)
      rw [mul_add, mul_comm P D] at this
      omega
    have hsub : (D - u) * P + P * u = D * P := by
      rw [mul_comm P u, ← add_mul]; congr 1; omega
    omega
  · have hc : Nat.count (reach true D P g) D = min D (D * g / P + 1) := by
      rw [← count_lt]
      apply count_congr
      intro j _
      unfold reach
      rw [if_pos rfl, Nat.lt_succ_iff, Nat.le_div_iff_mul_le hP]
    rw [hc]
    have hd := Nat.div_add_mod (D * g) P
    have hm := Nat.mod_lt (D * g) hP
    obtain ⟨u, hu⟩ : ∃ u, u = D * g / P := ⟨_, rfl⟩
    rw [← hu] at hd ⊢
    have hgP : D * g ≤ D * P := Nat.mul_le_mul_left _ hg
    have e : (u + 1) * P = P * u + P := by ring
    rcases Nat.le_total D (u + 1) with h | h
    · rw [min_eq_left h]
      have : D * P ≤ (u + 1) * P := Nat.mul_le_mul_right _ h
      omega
    · rw [min_eq_right h]
      omega

/-- The landing point in terms of the integer drawn. -/
theorem reach_landing (T : Ty) (x : Bits) (f : Nat) (h0 : 0 < f) (w : BitVec 64) :
    (reach x.sign (2 ^ 52) (2 ^ T.low) (f - 1) (drawn w) → 2 ^ (T.low - 1) + 1 ≤ landing T x f w) ∧
    (¬ landing T x f w ≤ 2 ^ (T.low - 1) - 1 → reach x.sign (2 ^ 52) (2 ^ T.low) (f + 1) (drawn w)) := by
  obtain ⟨-, -, -, hL1, -, -, -, -, -⟩ := ty_facts T
  obtain ⟨g, rfl⟩ : ∃ g, f = g + 1 := ⟨f - 1, by omega⟩
  have hLq : (2 : ℚ) ^ T.low = 2 * 2 ^ (T.low - 1) := by rw [← pow_succ']; congr 1; omega
  rw [Nat.add_sub_cancel]
  unfold landing reach
  generalize drawn w = j
  obtain ⟨D, hD⟩ : ∃ D : ℕ, D = 2 ^ 52 := ⟨_, rfl⟩
  have hDq : (2 : ℚ) ^ 52 = D := by rw [hD]; push_cast; rfl
  have hD0 : (0 : ℚ) < D := by rw [← hDq]; positivity
  obtain ⟨P, hP⟩ : ∃ P : ℕ, P = 2 ^ T.low := ⟨_, rfl⟩
  have hPq : (2 : ℚ) ^ T.low = P := by rw [hP]; push_cast; rfl
  rw [← hP, ← hD, hDq, hPq]
  rw [hPq] at hLq
  generalize (2 : ℚ) ^ (T.low - 1) = H at *
  have key : (j : ℚ) / D * P * D = j * P := by field_simp
  generalize (j : ℚ) / D = t at *
  cases x.sign
  · simp only [Bool.false_eq_true, if_false, sgn]
    constructor
    · intro h
      have h' : (D : ℚ) * P ≤ j * P + D * g := by exact_mod_cast h
      rw [← key, hLq] at h'
      rw [hLq]
      push_cast
      nlinarith
    · intro h
      rw [not_le] at h
      have : (D : ℚ) * P ≤ j * P + D * ((g + 1 + 1 : ℕ) : ℚ) := by
        rw [← key]
        push_cast at h ⊢
        nlinarith
      exact_mod_cast this
  · simp only [if_true, sgn]
    constructor
    · intro h
      have h' : (j : ℚ) * P ≤ D * g := by exact_mod_cast h
      rw [← key] at h'
      have h2 : t * P ≤ g := by
        rw [mul_comm] at h'; exact le_of_mul_le_mul_left h' hD0
      push_cast
      nlinarith
    · intro h
      rw [not_le] at h
      have : (j : ℚ) * P ≤ D * ((g + 1 + 1 : ℕ) : ℚ) := by
        rw [← key, mul_comm]
        push_cast at h ⊢
        apply mul_le_mul_of_nonneg_left _ hD0.le
        nlinarith
      exact_mod_cast this

theorem quad_arith (L n f cA cB A B h d1 d2 d3 : Nat) (hL : L ≤ 64) (hf : 0 < f)
    (a1 : A ≤ n + h) (a2 : A + d1 = 2 ^ 76 * cA) (a3 : 2 ^ 52 * (f - 1) ≤ cA * 2 ^ L + 2 ^ L) (a4 : d1 ≤ 1)
    (b1 : n ≤ B + h) (b2 : B + d2 = 2 ^ 76 * cB) (b3 : cB * 2 ^ L ≤ 2 ^ 52 * (f + 1) + 2 ^ L)
    (c1 : h + d3 = 2 ^ 76) :
    |(n : ℚ) - f / 2 ^ L * 2 ^ 128| ≤ 2 ^ (128 - L) + 2 ^ 78 := by
  obtain ⟨g, rfl⟩ : ∃ g, f = g + 1 := ⟨f - 1, by omega⟩
  rw [Nat.add_sub_cancel] at a3
  obtain ⟨X, hX⟩ : ∃ X : ℕ, X = 2 ^ (128 - L) := ⟨_, rfl⟩
  have hXL : 2 ^ 76 * 2 ^ 52 = 2 ^ L * X := by rw [hX, ← pow_add, ← pow_add]; congr 1; omega
  have hXq : (2 : ℚ) ^ (128 - L) = X := by rw [hX]; push_cast; rfl
  have hP : 0 < 2 ^ L := by positivity
  have hval : ((g + 1 : ℕ) : ℚ) / 2 ^ L * 2 ^ 128 = (g + 1) * X := by
    have : (2 : ℚ) ^ 128 = 2 ^ L * X := by
      rw [show (2 : ℚ) ^ 128 = 2 ^ 76 * 2 ^ 52 by norm_num]; exact_mod_cast hXL
    rw [this]
    push_cast
    field_simp
  rw [hval, hXq]
  have a5 : g * X ≤ 2 ^ 76 * cA + 2 ^ 76 := by
    apply Nat.le_of_mul_le_mul_left _ hP
    calc 2 ^ L * (g * X) = 2 ^ 76 * (2 ^ 52 * g) := by
          rw [show 2 ^ L * (g * X) = (2 ^ L * X) * g by ring, ← hXL]; ring
      _ ≤ 2 ^ 76 * (cA * 2 ^ L + 2 ^ L) := Nat.mul_le_mul_left _ a3
      _ = _ := by ring
  have b5 : 2 ^ 76 * cB ≤ (g + 2) * X + 2 ^ 76 := by
    apply Nat.le_of_mul_le_mul_left _ hP
    calc 2 ^ L * (2 ^ 76 * cB) = 2 ^ 76 * (cB * 2 ^ L) := by ring
      _ ≤ 2 ^ 76 * (2 ^ 52 * (g + 1 + 1) + 2 ^ L) := Nat.mul_le_mul_left _ b3
      _ = (2 ^ 76 * 2 ^ 52) * (g + 2) + 2 ^ 76 * 2 ^ L := by ring
      _ = _ := by rw [hXL]; ring
  have l1 : g * X ≤ n + 2 ^ 77 + 1 := by omega
  have l2 : n ≤ g * X + 2 * X + 2 ^ 77 := by rw [add_mul] at b5; omega
  have l1' : (g : ℚ) * X ≤ n + 2 ^ 77 + 1 := by exact_mod_cast l1
  have l2' : (n : ℚ) ≤ g * X + 2 * X + 2 ^ 77 := by exact_mod_cast l2
  rw [abs_le]
  constructor <;> linarith

/-- The result of an operation of the quad backend in rr mode. -/
theorem quad_op {σ : Type} (g : Gen σ) (T : Ty) (c : Ctx) (hm : c.mode = .rr) (hd : c.daz = false)
    (hf : c.ftz = false) (hs : 1 ≤ c.sparsity) (hr : c.relErr = true) (ha : c.absErr = false)
    (hp : c.prec T = (T.fmt.mw + 1 : ℕ)) (op : List Bits → Bits) (args : List Bits) (lo hi : Bits)
    (h : Between T lo hi (op (args.map (fconv T.fmt T.wide)))) (s : σ) :
    opN T (quadInexact g T c) op c s args =
      .ok (fconv T.wide T.fmt (fadd T.wide (op (args.map (fconv T.fmt T.wide))) (quadNoise T.wide
        (getExp T.wide (op (args.map (fconv T.fmt T.wide))) - (((T.fmt.mw + 1 : ℕ) : ℤ) - 1)) (g.next s).1)),
        (g.next s).2) := by
  obtain ⟨b1, b2, b3⟩ := between_not_bits T lo hi _ h
  apply opN_rr T _ op c hm hd hf
  unfold quadInexact
  rw [hp, C22_perturbed (quadPerturb g) g T c hs (T.fmt.mw + 1) (by omega) s _ h.wfx b2 (Or.inr (Or.inr ⟨hm, b3, b1⟩))]
  unfold quadPerturb
  simp only [hr, ha, if_true, Bool.false_eq_true, if_false]

/-- **C87**, quad backend.  In rr mode at the precision of the type, for every operation and all
operands whose result in the wide type lies strictly between two consecutive numbers of the type,
the lower of which is not a power of two, every draw but one half gives one of these two numbers,
and over one period of the generator the number of draws that give the number away from zero is
the relative position of the result times `2^128`, up to one part in `2^28` (`float`) or `2^49`
(`double`).  Missing: the draw one half and the powers of two, where the claim fails. -/
theorem C87_quad_partial (T : Ty) (c : Ctx) (hm : c.mode = .rr) (hd : c.daz = false) (hf : c.ftz = false)
    (hs : 1 ≤ c.sparsity) (hr : c.relErr = true) (ha : c.absErr = false) (hp : c.prec T = (T.fmt.mw + 1 : ℕ))
    (op : List Bits → Bits) (args : List Bits) (lo hi x : Bits) (hx : op (args.map (fconv T.fmt T.wide)) = x)
    (h : Between T lo hi x) (hman : lo.man ≠ 0) (s : Rng.St) (h0 : s ≠ ⟨0, 0⟩) :
    (∀ k, drawn (Rng.output (Rng.next^[k] s)) ≠ 2 ^ 51 →
      opN T (quadInexact rngGen T c) op c (Rng.next^[k] s) args = .ok (lo, Rng.next^[k + 1] s) ∨
      opN T (quadInexact rngGen T c) op c (Rng.next^[k] s) args = .ok (hi, Rng.next^[k + 1] s)) ∧
    ∃ n : ℕ, n = Nat.count (fun k => opN T (quadInexact rngGen T c) op c (Rng.next^[k] s) args =
        .ok (hi, Rng.next^[k + 1] s)) Rng.N ∧
      |(n : ℚ) - (|x.val T.wide| - |lo.val T.fmt|) / (|hi.val T.fmt| - |lo.val T.fmt|) * 2 ^ 128| ≤
        2 ^ (128 - T.low) + 2 ^ 78 := by
  subst hx
  obtain ⟨-, -, -, hL1, hL64, -, -, -, -⟩ := ty_facts T
  obtain ⟨f, f0, f1, hpat, hpos, e1, e2⟩ := between_pat T lo hi _ h
  have hop := quad_op rngGen T c hm hd hf hs hr ha hp op args lo hi h
  have hrd := fun w hw => quad_rounds T lo hi _ h hman f f0 f1 hpat e1 e2 w hw _ rfl
  have hrl := fun w => reach_landing T (op (args.map (fconv T.fmt T.wide))) f f0 w
  have hne : hi ≠ lo := by
    intro e
    have := congrArg (Bits.pat T.fmt) e
    rw [h.succ, pat_ofPat] at this
    omega
  generalize op (args.map (fconv T.fmt T.wide)) = x at *
  have hstep : ∀ k, (rngGen.next (Rng.next^[k] s)).2 = Rng.next^[k + 1] s := by
    intro k
    rw [Function.iterate_succ_apply']
    rfl
  have hout : ∀ k, (rngGen.next (Rng.next^[k] s)).1 = Rng.output (Rng.next^[k] s) := fun k => rfl
  refine ⟨fun k hk => ?_, _, rfl, ?_⟩
  · rw [hop, hstep, hout]
    rcases (hrd _ hk).2.2 with e | e <;> rw [e]
    · exact Or.inl rfl
    · exact Or.inr rfl
  · obtain ⟨dA, dA1, hA⟩ := count_drawn s h0 (reach x.sign (2 ^ 52) (2 ^ T.low) (f - 1))
    obtain ⟨dB, -, hB⟩ := count_drawn s h0 (reach x.sign (2 ^ 52) (2 ^ T.low) (f + 1))
    obtain ⟨dH, -, hH⟩ := count_drawn s h0 (fun j => j = 2 ^ 51)
    rw [Rng.count_single (2 ^ 52) (2 ^ 51) (by norm_num) (fun j => j = 2 ^ 51) (fun i _ => Iff.rfl), mul_one] at hH
    have hA2 := (count_reach x.sign (2 ^ 52) (2 ^ T.low) (f - 1) (by positivity) (by omega)).1
    have hB2 := (count_reach x.sign (2 ^ 52) (2 ^ T.low) (f + 1) (by positivity) (by omega)).2
    have hiff : ∀ k, opN T (quadInexact rngGen T c) op c (Rng.next^[k] s) args = .ok (hi, Rng.next^[k + 1] s) ↔
        fconv T.wide T.fmt (fadd T.wide x (quadNoise T.wide (getExp T.wide x - (((T.fmt.mw + 1 : ℕ) : ℤ) - 1))
          (Rng.output (Rng.next^[k] s)))) = hi := by
      intro k
      rw [hop, hstep, hout]
      constructor
      · intro e; exact congrArg Prod.fst (Outcome.ok.inj e)
      · intro e; rw [e]
    have c1 := le_trans (count_le_of (fun k => reach x.sign (2 ^ 52) (2 ^ T.low) (f - 1) (drawn (Rng.output (Rng.next^[k] s))))
      (fun k => opN T (quadInexact rngGen T c) op c (Rng.next^[k] s) args = .ok (hi, Rng.next^[k + 1] s) ∨
        drawn (Rng.output (Rng.next^[k] s)) = 2 ^ 51) Rng.N (by
        intro k _ hk
        by_cases hh : drawn (Rng.output (Rng.next^[k] s)) = 2 ^ 51
        · exact Or.inr hh
        · exact Or.inl ((hiff k).2 ((hrd _ hh).2.1 ((hrl _).1 hk))))) (count_or_le _ _ _)
    have c2 := le_trans (count_le_of (fun k => opN T (quadInexact rngGen T c) op c (Rng.next^[k] s) args = .ok (hi, Rng.next^[k + 1] s))
      (fun k => reach x.sign (2 ^ 52) (2 ^ T.low) (f + 1) (drawn (Rng.output (Rng.next^[k] s))) ∨
        drawn (Rng.output (Rng.next^[k] s)) = 2 ^ 51) Rng.N (by
        intro k _ hk
        by_cases hh : drawn (Rng.output (Rng.next^[k] s)) = 2 ^ 51
        · exact Or.inr hh
        · refine Or.inl ((hrl _).2 fun hl => hne ?_)
          rw [← (hiff k).1 hk]
          exact (hrd _ hh).1 hl)) (count_or_le _ _ _)
    rw [hpos]
    exact quad_arith T.low _ f _ _ _ _ _ dA dB dH hL64 f0 c1 hA hA2 dA1 c2 hB hB2 hH

end Verif.Mca
