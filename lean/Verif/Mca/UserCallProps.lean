import Verif.Mca.UserCall
import Verif.Mca.StochLimits

/-!
# Property C88: the perturbation of one value on request
-/

namespace Verif.Mca
open Verif Verif.Fp

variable {σ : Type}

/-- The name of a type in a request. -/
def Ty.req : Ty → FTy
  | .f32 => .float
  | .f64 => .double

theorem userInexact_req (g : Gen σ) (c : Ctx) (s : σ) (T : Ty) (asked : Int) (v : Bits) :
    userInexact g c s T.req asked v = inexactVia g T c asked s v := by
  cases T <;> rfl

theorem i32_ok (n : Int) (h1 : -2 ^ 31 ≤ n) (h2 : n < 2 ^ 31) : i32 n = .ok n := by
  unfold i32; rw [if_pos ⟨h1, h2⟩]

theorem getExp_range (F : Fmt) (hF : Wide F) (x : Bits) (hx : x.WF F) : -2 ^ 20 ≤ getExp F x ∧ getExp F x ≤ 2 ^ 20 := by
  have h1 : x.exp < 2 ^ F.ew := hx.1
  have h2 : F.bias ≤ 2 ^ 16 ∧ 2 ^ F.ew ≤ 2 ^ 16 := by rcases hF with rfl | rfl <;> decide
  unfold getExp
  omega

/-- The macro on a number. -/
theorem fastInexact_number (g : Gen σ) (F : Fmt) (hF : Wide F) (c : Ctx) (hm : c.mode ≠ .ieee) (t : Int)
    (ht1 : -2 ^ 30 ≤ t) (ht2 : t ≤ 2 ^ 30) (s : σ) (x : Bits) (hx : x.WF F) (hsp : ¬ Special F x) :
    fastInexact g F c t s x =
      .ok (some (fadd F x (quadNoise F (getExp F x - (t - 1)) (g.next s).1)), (g.next s).2) := by
  have hew : 2 ≤ F.ew := (wide_bias F hF).2.1
  have hcl : ¬ (classify F x ≠ .normal ∧ classify F x ≠ .subnormal) := fun h => hsp ((classify_special F hew x).2 h)
  obtain ⟨e1, e2⟩ := getExp_range F hF x hx
  unfold fastInexact
  rw [if_neg]
  · rw [i32_ok _ (by omega) (by omega)]
    simp only [Outcome.bind_ok]
    rw [i32_ok _ (by omega) (by omega)]
    simp only [Outcome.bind_ok]
  · simp only [Bool.or_eq_true, decide_eq_true_eq, Bool.and_eq_true, not_or]
    exact ⟨hm, hcl⟩

theorem inexactVia_number (g : Gen σ) (T : Ty) (c : Ctx) (hm : c.mode ≠ .ieee) (asked t : Int)
    (hc : callPrec (c.prec T) asked = .ok t) (ht1 : -2 ^ 30 ≤ t) (ht2 : t ≤ 2 ^ 30) (s : σ) (v : Bits)
    (hv : v.WF T.fmt) (hf : v.Fin T.fmt) (h0 : ¬ v.isZero) :
    inexactVia g T c asked s v =
      .ok (fconv T.wide T.fmt (fadd T.wide (fconv T.fmt T.wide v)
        (quadNoise T.wide (getExp T.wide (fconv T.fmt T.wide v) - (t - 1)) (g.next s).1)), (g.next s).2) := by
  obtain ⟨n1, n2, n3, -, -⟩ := widened_normal T v hv hf h0
  have hsp : ¬ Special T.wide (fconv T.fmt T.wide v) := by
    rintro (h | h | h)
    · have := h.1; omega
    · have := h.1; omega
    · have := h.1; omega
  unfold inexactVia
  rw [hc]
  simp only [Outcome.bind_ok]
  rw [fastInexact_number g T.wide (wide_ty T) c hm t ht1 ht2 s _ n1 hsp]
  simp only [Outcome.bind_ok]

/-- **C88**, precision: asking for zero or less counts from the precision of the context. -/
theorem C88_precision (g : Gen σ) (c : Ctx) (s : σ) (T : Ty) (asked : Int) (v : Bits) (h0 : asked ≤ 0)
    (h1 : 0 < c.prec T + asked) (h2 : c.prec T + asked < 2 ^ 31) :
    userInexact g c s T.req asked v = userInexact g c s T.req (c.prec T + asked) v := by
  rw [userInexact_req, userInexact_req]
  unfold inexactVia callPrec
  rw [if_pos h0, if_neg (by omega), i32_ok _ (by omega) h2]

/-- **C88**, what the request does not touch: in ieee mode, zeros, infinities and NaNs, and the
types the backend does not know; nothing is drawn. -/
theorem C88_untouched (g : Gen σ) (c : Ctx) (s : σ) (ty : FTy) (asked : Int) (v : Bits)
    (h : c.mode = .ieee ∨ ty = .other ∨ ty = .quad ∧ Special b128 v ∨
      ∃ T : Ty, ty = T.req ∧ Special T.fmt v ∧ v.WF T.fmt) (hr : -2 ^ 30 ≤ asked)
    (hp : ∀ T : Ty, 1 ≤ c.prec T ∧ c.prec T ≤ 2 ^ 30) :
    userInexact g c s ty asked v = .ok (v, s) := by
  have hc : ∀ T : Ty, ∃ t, callPrec (c.prec T) asked = .ok t := by
    intro T
    obtain ⟨p1, p2⟩ := hp T
    unfold callPrec
    split_ifs
    · exact ⟨_, i32_ok _ (by omega) (by omega)⟩
    · exact ⟨_, rfl⟩
  have hfi : ∀ F t x, 2 ≤ F.ew → (c.mode = .ieee ∨ Special F x) → fastInexact g F c t s x = .ok (none, s) := by
    intro F t x hew hh
    unfold fastInexact
    rw [if_pos]
    simp only [Bool.or_eq_true, decide_eq_true_eq, Bool.and_eq_true]
    rcases hh with hh | hh
    · exact Or.inl hh
    · exact Or.inr ((classify_special F hew x).1 hh)
  have hvia : ∀ T : Ty, (c.mode = .ieee ∨ Special T.wide (fconv T.fmt T.wide v)) → inexactVia g T c asked s v = .ok (v, s) := by
    intro T hh
    obtain ⟨t, ht⟩ := hc T
    unfold inexactVia
    rw [ht]
    simp only [Outcome.bind_ok]
    rw [hfi _ _ _ (by cases T <;> decide) hh]
    rfl
  rcases h with h | h | ⟨rfl, h⟩ | ⟨T, rfl, h, hwf⟩
  · cases ty
    · exact hvia .f32 (Or.inl h)
    · exact hvia .f64 (Or.inl h)
    · show (fastInexact g b128 c asked s v >>= _) = _
      rw [hfi _ _ _ (by decide) (Or.inl h)]
      rfl
    · rfl
  · subst h; rfl
  · show (fastInexact g b128 c asked s v >>= _) = _
    rw [hfi _ _ _ (by decide) (Or.inr h)]
    rfl
  · rw [userInexact_req]
    apply hvia T (Or.inr _)
    obtain ⟨sg, e, m⟩ := v
    rcases h with ⟨rfl, rfl⟩ | h | h
    · have := fconv_zero T.fmt T.wide (by cases T <;> decide) (by cases T <;> decide) sg
      unfold zeroBits at this
      rw [this]
      exact Or.inl ⟨rfl, rfl⟩
    · right; left
      unfold fconv
      rw [if_neg (fun hn => hn.2 h.2), if_pos h]
      exact ⟨rfl, rfl⟩
    · right; right
      unfold fconv
      rw [if_pos h]
      cases T <;> decide

/-- **C88**, what the request does not consult: the mode (but ieee), the sparsity, the error mode
and the flushing options. -/
theorem C88_ignored (g : Gen σ) (c c' : Ctx) (s : σ) (ty : FTy) (asked : Int) (v : Bits)
    (hm : c.mode = .ieee ↔ c'.mode = .ieee) (h32 : c.prec32 = c'.prec32) (h64 : c.prec64 = c'.prec64) :
    userInexact g c s ty asked v = userInexact g c' s ty asked v := by
  have hfi : ∀ F t x, fastInexact g F c t s x = fastInexact g F c' t s x := by
    intro F t x
    unfold fastInexact
    simp only [hm]
  have hp : ∀ T : Ty, c.prec T = c'.prec T := by intro T; cases T; exact h32; exact h64
  cases ty
  · unfold userInexact inexactVia; simp only [hfi, hp]
  · unfold userInexact inexactVia; simp only [hfi, hp]
  · unfold userInexact; simp only [hfi]
  · rfl

theorem callPrec_range (p asked t : Int) (h : callPrec p asked = .ok t) : asked ≤ 0 ∧ t = p + asked ∨ 0 < asked ∧ t = asked := by
  unfold callPrec i32 at h
  split_ifs at h with h1 h2
  · left; exact ⟨h1, (Outcome.ok.inj h).symm⟩
  · right; exact ⟨by omega, (Outcome.ok.inj h).symm⟩

/-- **C88**, size of the perturbation (but for the draw of one half): a number of `float` or
`double` is moved by at most half of its last unit at the precision `t` asked for, and the
rounding to its type at most doubles that. -/
theorem C88_bound_partial (g : Gen σ) (c : Ctx) (s : σ) (T : Ty) (asked : Int) (t : Nat)
    (hm : c.mode ≠ .ieee) (hc : (t : Int) = if asked ≤ 0 then c.prec T + asked else asked) (ht : 1 ≤ t) (htm : t ≤ T.wide.mw)
    (hw : drawn (g.next s).1 ≠ 2 ^ 51) (v : Bits) (hv : v.WF T.fmt) (hf : v.Fin T.fmt) (ex : Int)
    (h1 : (2 : ℚ) ^ ex ≤ |v.val T.fmt|) (h2 : |v.val T.fmt| < 2 ^ (ex + 1)) (hex : ex + 2 ≤ T.fmt.bias) :
    ∃ r, userInexact g c s T.req asked v = .ok (r, (g.next s).2) ∧ r.WF T.fmt ∧ r.Fin T.fmt ∧
      |r.val T.fmt - v.val T.fmt| ≤ 2 * (2 ^ (ex - t) + 2 ^ (ex - T.wide.mw)) := by
  obtain ⟨n1, n2, n5, ne, nlo, nhi, h0⟩ := operand_exp T v hv hf ex h1 h2
  have hmw : T.wide.mw ≤ 112 ∧ 1 ≤ T.wide.mw := by cases T <;> decide
  have hcp : callPrec (c.prec T) asked = .ok (t : Int) := by
    unfold callPrec
    split_ifs at hc ⊢ with ha
    · rw [i32_ok _ (by omega) (by omega), hc]
    · rw [hc]
  rw [userInexact_req, inexactVia_number g T c hm asked t hcp (by omega) (by omega) s v hv hf h0]
  obtain ⟨-, b2, b3⟩ := C21_bound_partial T.wide (wide_ty T) t ht (g.next s).1 hw
    (fconv T.fmt T.wide v) n1 n2 ex ne.symm (by omega) (by omega)
  rw [n5] at b3
  generalize fadd T.wide (fconv T.fmt T.wide v)
    (quadNoise T.wide (getExp T.wide (fconv T.fmt T.wide v) - (t - 1)) (g.next s).1) = y at *
  have hp : (0 : ℚ) < 2 ^ ex := zpow_pos (by norm_num) _
  have p1 : (2 : ℚ) ^ (ex - t) ≤ 2 ^ ex / 2 := by
    rw [show (2 : ℚ) ^ ex / 2 = 2 ^ (ex - 1) by rw [zpow_sub₀ (by norm_num)]; norm_num]
    exact zpow_le_zpow_right₀ (by norm_num) (by omega)
  have p2 : (2 : ℚ) ^ (ex - T.wide.mw) ≤ 2 ^ ex / 2 := by
    rw [show (2 : ℚ) ^ ex / 2 = 2 ^ (ex - 1) by rw [zpow_sub₀ (by norm_num)]; norm_num]
    exact zpow_le_zpow_right₀ (by norm_num) (by omega)
  have p3 : (2 : ℚ) ^ (ex + 1) = 2 * 2 ^ ex := by rw [zpow_add_one₀ (by norm_num)]; ring
  have p4 : (2 : ℚ) ^ (ex + 2) = 4 * 2 ^ ex := by rw [zpow_add₀ (by norm_num)]; norm_num; ring
  have hy : |y.val T.wide| ≤ maxVal T.fmt := by
    refine le_trans ?_ (le_maxVal T.fmt)
    refine le_trans ?_ (zpow_le_zpow_right₀ (by norm_num : (1 : ℚ) ≤ 2) hex)
    have e : y.val T.wide = v.val T.fmt + (y.val T.wide - v.val T.fmt) := by ring
    rw [e]
    refine le_trans (abs_add_le _ _) ?_
    rw [p4]
    rw [p3] at h2
    linarith
  obtain ⟨r1, r2, -, r4⟩ := fconv_round T.wide T.fmt (by cases T <;> decide) y b2 hy
  refine ⟨_, rfl, r1, r2, ?_⟩
  have q := r4 v hv
  rw [abs_sub_comm (v.val T.fmt)] at q
  have e : (fconv T.wide T.fmt y).val T.fmt - v.val T.fmt =
      ((fconv T.wide T.fmt y).val T.fmt - y.val T.wide) + (y.val T.wide - v.val T.fmt) := by ring
  rw [e]
  refine le_trans (abs_add_le _ _) ?_
  linarith

/-! ## At the precision of the type -/

theorem bits_eq_of_val (F : Fmt) (x y : Bits) (hx : x.WF F) (hy : y.WF F) (h : x.val F = y.val F) (h0 : y.val F ≠ 0) :
    x = y := by
  have ha : |x.val F| = |y.val F| := by rw [h]
  have hp : x.pat F = y.pat F :=
    le_antisymm (pat_le_of_abs F x y hx hy ha.le) (pat_le_of_abs F y x hy hx ha.ge)
  have hs : x.sign = y.sign := by
    have hsx : x.val F = sgn x.sign * |x.val F| := by
      rw [abs_val_mag, val_eq_mag]; ring
    have hsy : y.val F = sgn y.sign * |y.val F| := by
      rw [abs_val_mag, val_eq_mag]; ring
    have hpos : 0 < |y.val F| := abs_pos.2 h0
    have hk : sgn x.sign * |y.val F| = sgn y.sign * |y.val F| := by
      rw [ha] at hsx
      exact hsx.symm.trans (h.trans hsy)
    have hk2 := mul_right_cancel₀ hpos.ne' hk
    revert hk2
    cases x.sign <;> cases y.sign <;> norm_num [sgn]
  rw [← ofPat_pat F x hx.2, ← ofPat_pat F y hy.2, hs, hp]

/-- The widened pattern of a normal number. -/
theorem widen_pat (T : Ty) (v : Bits) (hv : v.WF T.fmt) (h1 : 1 ≤ v.exp) (h2 : v.exp < T.fmt.expInf) :
    fconv T.fmt T.wide v = ⟨v.sign, v.exp + T.off, v.man * 2 ^ T.low⟩ := by
  obtain ⟨hmw, hbias, hF1, hL1, -, -, -, hu, hei⟩ := ty_facts T
  have hf : v.Fin T.fmt := by unfold Bits.Fin; omega
  have h0 : ¬ v.isZero := by rintro ⟨a, -⟩; omega
  obtain ⟨n1, n2, n3, n4, n5⟩ := widened_normal T v hv hf h0
  have hw2 : 2 ^ T.wide.mw = 2 ^ T.fmt.mw * 2 ^ T.low := by rw [hmw, pow_add]
  have hL : 0 < 2 ^ T.low := by positivity
  have e : Bits.val T.wide ⟨v.sign, v.exp + T.off, v.man * 2 ^ T.low⟩ = v.val T.fmt := by
    rw [val_eq_mag, val_eq_mag, mag_normal _ _ (by show v.exp + T.off ≠ 0; omega), mag_normal _ v (by omega)]
    have hscale : (2 : ℚ) ^ T.fmt.uexp = 2 ^ (T.off + T.low) * 2 ^ T.wide.uexp := by
      rw [← zpow_natCast 2 (T.off + T.low), ← zpow_add₀ (by norm_num)]; congr 1; omega
    rw [hscale]
    show sgn v.sign * ((2 ^ T.wide.mw + v.man * 2 ^ T.low) * 2 ^ (v.exp + T.off - 1) : ℕ) * _ = _
    rw [show v.exp + T.off - 1 = (v.exp - 1) + T.off by omega, hw2]
    push_cast
    rw [pow_add, pow_add]
    ring
  apply bits_eq_of_val T.wide _ _ n1
  · refine ⟨?_, ?_⟩
    · show v.exp + T.off < 2 ^ T.wide.ew
      unfold Fmt.expInf at hei h2
      omega
    · show v.man * 2 ^ T.low < 2 ^ T.wide.mw
      rw [hw2]
      exact Nat.mul_lt_mul_of_pos_right hv.2 hL
  · rw [n5, e]
  · rw [e]
    have : 0 < |v.val T.fmt| := by
      rw [abs_val_mag, mag_normal _ v (by omega)]
      have hu0 : (0 : ℚ) < 2 ^ T.fmt.uexp := zpow_pos (by norm_num) _
      positivity
    exact abs_pos.1 this

/-- Rounding stays on an even number from half a unit away at most. -/
theorem rne_even (q m j : Nat) (hj : 1 ≤ j) (hq : q % 2 = 0) (h1 : q * 2 ^ j ≤ m + 2 ^ (j - 1)) (h2 : m ≤ q * 2 ^ j + 2 ^ (j - 1)) :
    rneShift m j = q := by
  have hP : 2 ^ j = 2 * 2 ^ (j - 1) := by rw [← pow_succ']; congr 1; omega
  have hH : 0 < 2 ^ (j - 1) := by positivity
  unfold rneShift
  rw [hP] at h1 h2 ⊢
  clear hP
  generalize 2 ^ (j - 1) = H at *
  have hd := Nat.div_add_mod m (2 * H)
  have hl := Nat.mod_lt m (show 0 < 2 * H by omega)
  rcases Nat.lt_or_ge m (q * (2 * H)) with h | h
  · obtain ⟨k, rfl⟩ : ∃ k, q = k + 1 := ⟨q - 1, by rcases q with _ | q; omega; omega⟩
    have e : (k + 1) * (2 * H) = k * (2 * H) + 2 * H := by ring
    have hdiv : m / (2 * H) = k := by
      rw [Nat.div_eq_iff (by omega)]; constructor
      · omega
      · rw [e] at h; omega
    rw [hdiv] at hd ⊢
    have e2 : 2 * H * k = k * (2 * H) := by ring
    have hmod : H ≤ m % (2 * H) := by omega
    rw [if_pos]
    by_cases hb : m % (2 * H) = H
    · right; omega
    · left; omega
  · have hdiv : m / (2 * H) = q := by
      rw [Nat.div_eq_iff (by omega)]; constructor
      · omega
      · omega
    rw [hdiv] at hd ⊢
    have e2 : 2 * H * q = q * (2 * H) := by ring
    rw [if_neg]
    rintro (hb | hb)
    · omega
    · omega

/-- **C88** at the precision of the type (asked for, or current and zero asked for): a normal
number with an even last bit that is not a power of two is not changed, whatever the draw (but
one half). -/
theorem C88_even_partial (g : Gen σ) (c : Ctx) (s : σ) (T : Ty) (asked : Int) (hm : c.mode ≠ .ieee)
    (hc : ((T.fmt.mw + 1 : ℕ) : Int) = if asked ≤ 0 then c.prec T + asked else asked)
    (hw : drawn (g.next s).1 ≠ 2 ^ 51) (v : Bits) (hv : v.WF T.fmt) (h1 : 1 ≤ v.exp) (h2 : v.exp < T.fmt.expInf)
    (hne : v.man ≠ 0) (hev : v.man % 2 = 0) :
    userInexact g c s T.req asked v = .ok (v, (g.next s).2) := by
  obtain ⟨hmw, hbias, hF1, hL1, -, -, -, hu, hei⟩ := ty_facts T
  have hf : v.Fin T.fmt := by unfold Bits.Fin; omega
  have h0 : ¬ v.isZero := by rintro ⟨a, -⟩; omega
  have hmw2 : T.fmt.mw ≤ 112 := by cases T <;> decide
  have hcp : callPrec (c.prec T) asked = .ok ((T.fmt.mw + 1 : ℕ) : Int) := by
    unfold callPrec
    split_ifs at hc ⊢ with ha
    · rw [i32_ok _ (by omega) (by omega), hc]
    · rw [hc]
  rw [userInexact_req, inexactVia_number g T c hm asked _ hcp (by omega) (by omega) s v hv hf h0]
  obtain ⟨n1, n2, n3, n4, n5⟩ := widened_normal T v hv hf h0
  have hx := widen_pat T v hv h1 h2
  generalize fconv T.fmt T.wide v = x at *
  have hw2 : 2 ^ T.wide.mw = 2 ^ T.fmt.mw * 2 ^ T.low := by rw [hmw, pow_add]
  obtain ⟨q, hq⟩ : ∃ q, q = v.pat T.fmt + T.off * 2 ^ T.fmt.mw := ⟨_, rfl⟩
  have hxp : x.pat T.wide = (v.pat T.fmt + T.off * 2 ^ T.fmt.mw) * 2 ^ T.low + 0 := by
    rw [hx]
    show (v.exp + T.off) * 2 ^ T.wide.mw + v.man * 2 ^ T.low = (v.exp * 2 ^ T.fmt.mw + v.man + _) * _ + 0
    rw [hw2]; ring
  obtain ⟨y, hy⟩ : ∃ y, y = fadd T.wide x (quadNoise T.wide (getExp T.wide x - (((T.fmt.mw + 1 : ℕ) : ℤ) - 1)) (g.next s).1) := ⟨_, rfl⟩
  have xe : x.exp = v.exp + T.off := by rw [hx]
  obtain ⟨y1, y2, y3, y4⟩ := quad_pat T v x n1 (by unfold Bits.Fin; omega) hv h1 hne 0 (by positivity) hxp
    (by omega) (by omega) _ hw y hy
  rw [← hy]
  have hH : (2 : ℚ) ^ T.low = 2 * 2 ^ (T.low - 1) := by rw [← pow_succ']; congr 1; omega
  have hHp : (0 : ℚ) < 2 ^ (T.low - 1) := by positivity
  have hdl : (drawn (g.next s).1 : ℚ) < 2 ^ 52 := by exact_mod_cast drawn_lt (g.next s).1
  have hd0 : (0 : ℚ) ≤ drawn (g.next s).1 := by positivity
  have hδ : |(drawn (g.next s).1 : ℚ) / 2 ^ 52 - 1 / 2| ≤ 1 / 2 := by
    rw [abs_le]; constructor
    · have : (0 : ℚ) ≤ drawn (g.next s).1 / 2 ^ 52 := by positivity
      linarith
    · have : (drawn (g.next s).1 : ℚ) / 2 ^ 52 ≤ 1 := by rw [div_le_one (by positivity)]; exact hdl.le
      linarith
  have hland : |landing T x 0 (g.next s).1| ≤ 2 ^ (T.low - 1) := by
    unfold landing
    have hs1 : |sgn x.sign| = 1 := by rcases sgn_cases x.sign with h | h <;> rw [h] <;> norm_num
    rw [Nat.cast_zero, zero_add, abs_mul, abs_mul, hs1, one_mul, abs_of_pos (by positivity : (0 : ℚ) < 2 ^ T.low), hH]
    nlinarith
  rw [abs_le] at hland
  have k1 := y3 (-(2 : ℤ) ^ (T.low - 1)) le_rfl (by
    have a1 : (0 : ℤ) < 2 ^ T.low := by positivity
    have a2 : (0 : ℤ) < 2 ^ (T.low - 1) := by positivity
    linarith) (by push_cast; exact hland.1)
  have k2 := y4 (2 ^ (T.low - 1)) (Nat.le_add_left _ _) (by push_cast; exact hland.2)
  rw [← hq] at k1 k2
  have k1' : q * 2 ^ T.low ≤ y.pat T.wide + 2 ^ (T.low - 1) := by
    have : ((q * 2 ^ T.low : ℕ) : ℤ) ≤ y.pat T.wide + 2 ^ (T.low - 1) := by linarith
    exact_mod_cast this
  have hqe : q % 2 = 0 := by
    obtain ⟨a, ha⟩ : ∃ a, 2 ^ T.fmt.mw = 2 * a := ⟨2 ^ (T.fmt.mw - 1), by rw [← pow_succ']; congr 1; omega⟩
    rw [hq]
    show (v.exp * 2 ^ T.fmt.mw + v.man + T.off * 2 ^ T.fmt.mw) % 2 = 0
    rw [ha, show v.exp * (2 * a) + v.man + T.off * (2 * a) = v.man + 2 * (v.exp * a + T.off * a) by ring]
    omega
  have hr := rne_even q _ T.low hL1 hqe k1' k2
  -- the exponent of `y`
  have hHn : 2 ^ T.low = 2 * 2 ^ (T.low - 1) := by rw [← pow_succ']; congr 1; omega
  have hHp' : 0 < 2 ^ (T.low - 1) := by positivity
  have hP : 0 < 2 ^ T.fmt.mw := by positivity
  have hq1 : (T.off + 1) * 2 ^ T.fmt.mw + 1 ≤ q := by
    rw [hq]; unfold Bits.pat
    have : 1 * 2 ^ T.fmt.mw ≤ v.exp * 2 ^ T.fmt.mw := Nat.mul_le_mul_right _ h1
    have e : (T.off + 1) * 2 ^ T.fmt.mw = T.off * 2 ^ T.fmt.mw + 1 * 2 ^ T.fmt.mw := by ring
    omega
  have hq2 : q + 1 ≤ (T.off + T.fmt.expInf) * 2 ^ T.fmt.mw := by
    rw [hq]; unfold Bits.pat
    have : (v.exp + 1) * 2 ^ T.fmt.mw ≤ T.fmt.expInf * 2 ^ T.fmt.mw := Nat.mul_le_mul_right _ h2
    have e : (T.off + T.fmt.expInf) * 2 ^ T.fmt.mw = T.off * 2 ^ T.fmt.mw + T.fmt.expInf * 2 ^ T.fmt.mw := by ring
    have e' : (v.exp + 1) * 2 ^ T.fmt.mw = v.exp * 2 ^ T.fmt.mw + 2 ^ T.fmt.mw := by ring
    have := hv.2
    omega
  have l1 : (T.off + 1) * 2 ^ T.wide.mw ≤ y.pat T.wide := by
    have := Nat.mul_le_mul_right (2 ^ T.low) hq1
    rw [Nat.add_mul, one_mul] at this
    rw [hw2, ← mul_assoc]
    omega
  have l2 : y.pat T.wide < (T.off + T.fmt.expInf) * 2 ^ T.wide.mw := by
    have := Nat.mul_le_mul_right (2 ^ T.low) hq2
    rw [Nat.add_mul, one_mul] at this
    rw [hw2, ← mul_assoc]
    omega
  have hye1 : T.off + 1 ≤ y.exp := by
    by_contra hcn
    have h3 : y.pat T.wide < (y.exp + 1) * 2 ^ T.wide.mw := by
      unfold Bits.pat; have := y1.2; rw [Nat.add_mul]; omega
    have h4 : (y.exp + 1) * 2 ^ T.wide.mw ≤ (T.off + 1) * 2 ^ T.wide.mw := Nat.mul_le_mul_right _ (by omega)
    omega
  have hye2 : y.exp < T.off + T.fmt.expInf := by
    by_contra hcn
    have h3 : y.exp * 2 ^ T.wide.mw ≤ y.pat T.wide := by unfold Bits.pat; omega
    have h4 : (T.off + T.fmt.expInf) * 2 ^ T.wide.mw ≤ y.exp * 2 ^ T.wide.mw := Nat.mul_le_mul_right _ (by omega)
    omega
  obtain ⟨p, p1, p2⟩ := fconv_pat T y y1 hye1 (by omega)
  rw [hr, hq] at p1
  have hpv : p = v.pat T.fmt := by omega
  rw [p2, if_pos, hpv, y2, n4, ofPat_pat T.fmt v hv.2]
  rw [hpv]
  rw [Nat.add_mul] at hq2
  omega

/-- The same for the numbers below the normal range, whatever their last bit. -/
theorem C88_subnormal_partial (g : Gen σ) (c : Ctx) (s : σ) (T : Ty) (asked : Int) (hm : c.mode ≠ .ieee)
    (hc : ((T.fmt.mw + 1 : ℕ) : Int) = if asked ≤ 0 then c.prec T + asked else asked)
    (hw : drawn (g.next s).1 ≠ 2 ^ 51) (v : Bits) (hv : v.WF T.fmt) (h1 : v.exp = 0) (hne : v.man ≠ 0) :
    userInexact g c s T.req asked v = .ok (v, (g.next s).2) := by
  obtain ⟨hmw, hbias, hF1, hL1, -, -, -, hu, hei⟩ := ty_facts T
  have hexp := expInf_ge T.fmt (by cases T <;> decide)
  have hf : v.Fin T.fmt := by unfold Bits.Fin; omega
  have h0 : ¬ v.isZero := by rintro ⟨-, a⟩; omega
  have hmw2 : T.fmt.mw ≤ 112 := by cases T <;> decide
  have hlow : 29 ≤ T.low := by cases T <;> decide
  have hcp : callPrec (c.prec T) asked = .ok ((T.fmt.mw + 1 : ℕ) : Int) := by
    unfold callPrec
    split_ifs at hc ⊢ with ha
    · rw [i32_ok _ (by omega) (by omega), hc]
    · rw [hc]
  rw [userInexact_req, inexactVia_number g T c hm asked _ hcp (by omega) (by omega) s v hv hf h0]
  obtain ⟨n1, n2, n3, n4, n5⟩ := widened_normal T v hv hf h0
  generalize fconv T.fmt T.wide v = x at *
  obtain ⟨ex, hex⟩ : ∃ ex : ℤ, ex = (x.exp : ℤ) - T.wide.bias := ⟨_, rfl⟩
  have hxlo : (2 : ℚ) ^ ex ≤ |x.val T.wide| := by
    rw [abs_val]
    have hl : x.lsb T.wide = (x.exp : ℤ) - T.wide.bias - T.wide.mw := by unfold Bits.lsb; rw [max_eq_left n2]
    have e2 : (2 : ℚ) ^ ex = 2 ^ T.wide.mw * 2 ^ x.lsb T.wide := by
      rw [← zpow_natCast, ← zpow_add₀ (by norm_num), hl, hex]; congr 1; ring
    rw [e2]
    apply mul_le_mul_of_nonneg_right _ (zpow_pos (by norm_num) _).le
    have : 2 ^ T.wide.mw ≤ x.sig T.wide := by unfold Bits.sig; rw [if_neg (by omega)]; omega
    exact_mod_cast this
  have hvhi : |v.val T.fmt| < 2 ^ (T.fmt.uexp + T.fmt.mw) := by
    rw [abs_val_mag, mag_subnormal _ _ h1, zpow_add₀ (by norm_num), mul_comm, zpow_natCast]
    apply mul_lt_mul_of_pos_left _ (zpow_pos (by norm_num) _)
    exact_mod_cast hv.2
  have hexl : ex < T.fmt.uexp + T.fmt.mw := by
    rw [n5] at hxlo
    exact (zpow_lt_zpow_iff_right₀ (by norm_num : (1 : ℚ) < 2)).1 (lt_of_le_of_lt hxlo hvhi)
  have hvlo : (2 : ℚ) ^ T.fmt.uexp ≤ |v.val T.fmt| := by
    rw [abs_val_mag, mag_subnormal _ _ h1]
    have : (1 : ℚ) ≤ v.man := by exact_mod_cast (by omega : 1 ≤ v.man)
    have hu0 : (0 : ℚ) < 2 ^ T.fmt.uexp := zpow_pos (by norm_num) _
    nlinarith
  have hxhi : |x.val T.wide| < 2 ^ (ex + 1) := by
    rw [abs_val]
    have hl : x.lsb T.wide = (x.exp : ℤ) - T.wide.bias - T.wide.mw := by unfold Bits.lsb; rw [max_eq_left n2]
    have e2 : (2 : ℚ) ^ (ex + 1) = 2 ^ (T.wide.mw + 1) * 2 ^ x.lsb T.wide := by
      rw [← zpow_natCast, ← zpow_add₀ (by norm_num), hl, hex]; congr 1; push_cast; ring
    rw [e2]
    apply mul_lt_mul_of_pos_right _ (zpow_pos (by norm_num) _)
    exact_mod_cast sig_lt T.wide x n1
  rw [n5] at hxlo hxhi
  obtain ⟨-, -, -, -, olo, ohi, -⟩ := operand_exp T v hv hf ex hxlo hxhi
  obtain ⟨-, b2, b3⟩ := C21_bound_partial T.wide (wide_ty T) (T.fmt.mw + 1) (by omega) (g.next s).1 hw
    x n1 n2 ex hex (by push_cast; omega) ohi
  rw [n5] at b3
  generalize fadd T.wide x (quadNoise T.wide (getExp T.wide x - (((T.fmt.mw + 1 : ℕ) : ℤ) - 1)) (g.next s).1) = y at *
  have hu0 : (0 : ℚ) < 2 ^ T.fmt.uexp := zpow_pos (by norm_num) _
  have p1 : (2 : ℚ) ^ (ex - (T.fmt.mw + 1 : ℕ)) ≤ 2 ^ T.fmt.uexp / 4 := by
    rw [show (2 : ℚ) ^ T.fmt.uexp / 4 = 2 ^ (T.fmt.uexp - 2) by rw [zpow_sub₀ (by norm_num)]; norm_num]
    exact zpow_le_zpow_right₀ (by norm_num) (by push_cast; omega)
  have p2 : (2 : ℚ) ^ (ex - T.wide.mw) ≤ 2 ^ T.fmt.uexp / 8 := by
    rw [show (2 : ℚ) ^ T.fmt.uexp / 8 = 2 ^ (T.fmt.uexp - 3) by rw [zpow_sub₀ (by norm_num)]; norm_num]
    exact zpow_le_zpow_right₀ (by norm_num) (by omega)
  have hd : |v.val T.fmt - y.val T.wide| < 2 ^ T.fmt.uexp / 2 := by
    rw [abs_sub_comm]; linarith
  have hmax : |y.val T.wide| ≤ maxVal T.fmt := by
    refine le_trans ?_ (le_maxVal T.fmt)
    have e : y.val T.wide = v.val T.fmt - (v.val T.fmt - y.val T.wide) := by ring
    have hb : (2 : ℚ) ^ (T.fmt.uexp + T.fmt.mw + 1) ≤ 2 ^ (T.fmt.bias : ℤ) :=
      zpow_le_zpow_right₀ (by norm_num) (by cases T <;> decide)
    have hb2 : (2 : ℚ) ^ (T.fmt.uexp + T.fmt.mw + 1) = 2 * 2 ^ (T.fmt.uexp + T.fmt.mw) := by
      rw [zpow_add_one₀ (by norm_num)]; ring
    have hb3 : (2 : ℚ) ^ T.fmt.uexp ≤ 2 ^ (T.fmt.uexp + T.fmt.mw) := zpow_le_zpow_right₀ (by norm_num) (by omega)
    rw [e]
    refine le_trans (abs_sub _ _) ?_
    linarith
  have hval := near_rounds T v y b2 hmax hv hd
  obtain ⟨r1, -, -, -⟩ := fconv_round T.wide T.fmt (by cases T <;> decide) y b2 hmax
  rw [bits_eq_of_val T.fmt _ v r1 hv hval (abs_pos.1 (by linarith))]

/-! ## Quad, and the limits -/

/-- **C88** for `FQUAD` at a positive precision. -/
theorem C88_quad_bound_partial (g : Gen σ) (c : Ctx) (s : σ) (t : Nat) (hm : c.mode ≠ .ieee) (ht : 1 ≤ t) (ht2 : t ≤ 2 ^ 30)
    (hw : drawn (g.next s).1 ≠ 2 ^ 51) (v : Bits) (hv : v.WF b128) (hn : 1 ≤ v.exp) (ex : Int)
    (h1 : (2 : ℚ) ^ ex ≤ |v.val b128|) (h2 : |v.val b128| < 2 ^ (ex + 1))
    (hlo : 52 - (b128.bias : Int) + t ≤ ex) (hhi : ex + 2 ≤ b128.bias) :
    ∃ r, userInexact g c s .quad t v = .ok (r, (g.next s).2) ∧ r.Fin b128 ∧
      |r.val b128 - v.val b128| ≤ 2 ^ (ex - t) + 2 ^ (ex - 112) := by
  have hex := exp_of_val b128 v hv hn ex h1 h2
  have hb : b128.bias = 16383 := by decide
  have hi : b128.expInf = 32767 := by decide
  have hsp : ¬ Special b128 v := by
    rintro (h | h | h)
    · have := h.1; omega
    · have := h.1; omega
    · have := h.1; omega
  have hF : Wide b128 := wide_ty .f64
  obtain ⟨-, b2, b3⟩ := C21_bound_partial b128 hF t ht (g.next s).1 hw v hv hn ex hex.symm (by omega) hhi
  refine ⟨_, ?_, b2, b3⟩
  unfold userInexact
  simp only
  rw [fastInexact_number g b128 hF c hm t (by omega) (by omega) s v hv hsp]
  simp only [Outcome.bind_ok]

/-- A generator that always draws `w`. -/
def always (w : BitVec 64) : Gen Unit := ⟨fun _ => (w, ())⟩

/-- **C88 fails for `FQUAD` at precision zero**: the value one may become zero, where the requests
on the other types count from the precision of the context. -/
theorem C88_quad_zero_wrong : ∃ w, drawn w ≠ 2 ^ 51 ∧
    userInexact (always w) init () .quad 0 ⟨false, 16383, 0⟩ = .ok (⟨false, 0, 0⟩, ()) ∧
    userInexact (always w) init () .double 0 ⟨false, 1023, 2⟩ = .ok (⟨false, 1023, 2⟩, ()) :=
  ⟨0, by decide +kernel⟩

/-- **C88 fails at the precision of the type**: a power of two may become its predecessor, and an
odd number its neighbour. -/
theorem C88_zero_wrong : ∃ w, drawn w ≠ 2 ^ 51 ∧
    userInexact (always w) init () .float 0 ⟨false, 127, 0⟩ = .ok (⟨false, 126, 2 ^ 23 - 1⟩, ()) ∧
    userInexact (always w) init () .float 0 ⟨false, 127, 1⟩ = .ok (⟨false, 127, 0⟩, ()) :=
  ⟨0, by decide +kernel⟩

/-- **C88 fails for the draw of one half**: the value one becomes infinite. -/
theorem C88_half_wrong : ∃ w, drawn w = 2 ^ 51 ∧
    userInexact (always w) init () .float 0 ⟨false, 127, 0⟩ = .ok (⟨false, 255, 0⟩, ()) :=
  ⟨2 ^ 63, by decide +kernel⟩

/-- **C88**: the smallest `int` as a precision of `FQUAD` is undefined behaviour. -/
theorem C88_overflow (g : Gen σ) (c : Ctx) (s : σ) (v : Bits) (hm : c.mode ≠ .ieee) (hv : ¬ Special b128 v) :
    userInexact g c s .quad (-2 ^ 31) v = .ub := by
  have hcl : ¬ (classify b128 v ≠ .normal ∧ classify b128 v ≠ .subnormal) :=
    fun h => hv ((classify_special b128 (by decide) v).2 h)
  unfold userInexact fastInexact
  simp only
  rw [if_neg]
  · rw [show i32 (-2 ^ 31 - 1) = .ub by decide]
    rfl
  · simp only [Bool.or_eq_true, decide_eq_true_eq, Bool.and_eq_true, not_or]
    exact ⟨hm, hcl⟩

/-! ## All loaded backends -/

/-- **C88**: backends without this request leave the value as it is. -/
theorem C88_idle (g : Gen σ) (ty : FTy) (asked : Int) (bs : List (Loaded σ)) (h : ∀ b ∈ bs, b = .idle) (v : Bits) :
    interflopCall g ty asked bs v = .ok (v, bs) := by
  induction bs with
  | nil => rfl
  | cons b bs ih =>
    obtain rfl := h b (by simp)
    unfold interflopCall
    rw [ih (fun b hb => h b (by simp [hb]))]
    rfl

/-- **C88**: wherever mcaquad is loaded among such backends, the value is perturbed once. -/
theorem C88_one (g : Gen σ) (ty : FTy) (asked : Int) (pre post : List (Loaded σ)) (h1 : ∀ b ∈ pre, b = .idle)
    (h2 : ∀ b ∈ post, b = .idle) (c : Ctx) (s : σ) (v : Bits) (r : Bits) (s' : σ)
    (h : userInexact g c s ty asked v = .ok (r, s')) :
    interflopCall g ty asked (pre ++ .mcaquad c s :: post) v = .ok (r, pre ++ .mcaquad c s' :: post) := by
  induction pre with
  | nil =>
    show interflopCall g ty asked (.mcaquad c s :: post) v = _
    unfold interflopCall
    rw [h]
    simp only [Outcome.bind_ok]
    rw [C88_idle g ty asked post h2]
    rfl
  | cons b bs ih =>
    obtain rfl := h1 b (by simp)
    rw [List.cons_append]
    unfold interflopCall
    rw [ih (fun b hb => h1 b (by simp [hb]))]
    rfl

/-- Twice loaded, the value is perturbed twice: `1.5` at precision 3 with the draw zero loses
`2^-3` once, then again. -/
example : (interflopCall (always 0) .float 3 [.mcaquad init (), .idle, .mcaquad init ()] ⟨false, 127, 2 ^ 22⟩ >>=
    fun p => Outcome.ok p.1) = .ok ⟨false, 127, 2 ^ 21⟩ := by decide +kernel

/-- `C88_precision`: `-20` at the default precision of `float` is precision 4. -/
example : userInexact (always 0) init () .float (-20) ⟨false, 127, 2 ^ 22⟩ =
    .ok (⟨false, 127, 2 ^ 22 - 2 ^ 19⟩, ()) := by decide +kernel

/-- `C88_bound_partial`: a double between one and two asked for 20 bits. -/
example (s : Rng.St) (hw : drawn (Rng.output s) ≠ 2 ^ 51) (v : Bits) (hv : v.WF b64) (hf : v.Fin b64)
    (h1 : (2 : ℚ) ^ (0 : ℤ) ≤ |v.val b64|) (h2 : |v.val b64| < 2 ^ (0 + 1 : ℤ)) :
    ∃ r, userInexact rngGen init s .double 20 v = .ok (r, Rng.next s) ∧
      |r.val b64 - v.val b64| ≤ 2 * (2 ^ (0 - (20 : ℕ) : ℤ) + 2 ^ (0 - (112 : ℕ) : ℤ)) := by
  obtain ⟨r, a, -, -, b⟩ := C88_bound_partial rngGen init s .f64 20 20 (by decide) (by decide) (by norm_num) (by decide) hw v hv hf
    0 h1 h2 (by decide)
  exact ⟨r, a, b⟩

/-- `C88_untouched`: infinity. -/
example : userInexact (always 5) init () .double 10 ⟨true, 2047, 0⟩ = .ok (⟨true, 2047, 0⟩, ()) := by decide +kernel

/-- `C88_even_partial`: `1.5`. -/
example (s : Rng.St) (hw : drawn (Rng.output s) ≠ 2 ^ 51) :
    userInexact rngGen init s .float 0 ⟨false, 127, 2 ^ 22⟩ = .ok (⟨false, 127, 2 ^ 22⟩, Rng.next s) :=
  C88_even_partial rngGen init s .f32 0 (by decide) (by decide) hw _ (by decide) (by decide) (by decide) (by decide) (by decide)

/-- `C88_ignored`: the random rounding mode perturbs numbers of the precision. -/
example : userInexact (always 0) { init with mode := .rr, sparsity := 0 } () .float 3 ⟨false, 127, 2 ^ 22⟩ =
    .ok (⟨false, 127, 3 * 2 ^ 20⟩, ()) := by decide +kernel

end Verif.Mca
