import Verif.Mca.StochLimits
import Verif.Pass.McaRelProps

/-!
# Property C114: the mean of one operation

Computations that draw words, and one operation of the integer backend in rr mode as such a computation: its mean, over the
words, is the exact result up to the last bit of the wide type.
-/

namespace Verif.Pass.Mean
open Verif Verif.Fp Verif.Mca Verif.Pass

/-! ## Computations that draw -/

/-- The average over all words. -/
def avg (f : BitVec 64 → ℚ) : ℚ := (∑ n ∈ Finset.range (2 ^ 64), f (BitVec.ofNat 64 n)) / 2 ^ 64

theorem avg_const (c : ℚ) : avg (fun _ => c) = c := by
  unfold avg
  rw [Finset.sum_const, Finset.card_range, nsmul_eq_mul, Nat.cast_pow, Nat.cast_ofNat]
  exact mul_div_cancel_left₀ c (by positivity)

theorem avg_add (f f' : BitVec 64 → ℚ) : (avg fun w => f w + f' w) = avg f + avg f' := by
  unfold avg
  rw [Finset.sum_add_distrib, add_div]

theorem avg_mul (f : BitVec 64 → ℚ) (c : ℚ) : (avg fun w => f w * c) = avg f * c := by
  unfold avg
  rw [← Finset.sum_mul, mul_div_right_comm]

theorem avg_le {f f' : BitVec 64 → ℚ} (h : ∀ w, f w ≤ f' w) : avg f ≤ avg f' := by
  unfold avg
  exact div_le_div_of_nonneg_right (Finset.sum_le_sum fun n _ => h _) (by positivity)

/-- A computation that draws words. -/
inductive Draws (α : Type) where
  | ret (a : α)
  | draw (k : BitVec 64 → Draws α)

namespace Draws
variable {α β : Type}

def bind : Draws α → (α → Draws β) → Draws β
  | ret a, k => k a
  | draw d, k => draw fun w => (d w).bind k

/-- What the computation gives with the words of a generator. -/
def run {σ : Type} (g : Gen σ) : Draws α → σ → α × σ
  | ret a, s => (a, s)
  | draw k, s => (k (g.next s).1).run g (g.next s).2

/-- The mean of `f` of the result when all words are equally likely and independent. -/
def E : Draws α → (α → ℚ) → ℚ
  | ret a, f => f a
  | draw k, f => avg fun w => (k w).E f

/-- No more than `n` words are drawn. -/
def Within : Nat → Draws α → Prop
  | _, ret _ => True
  | 0, draw _ => False
  | n + 1, draw k => ∀ w, Within n (k w)

/-- The possible results. -/
inductive Gives : Draws α → α → Prop
  | ret (a : α) : Gives (ret a) a
  | draw (k : BitVec 64 → Draws α) (w : BitVec 64) (a : α) (h : Gives (k w) a) : Gives (draw k) a

theorem run_bind {σ : Type} (g : Gen σ) (p : Draws α) (k : α → Draws β) (s : σ) :
    (p.bind k).run g s = (k (p.run g s).1).run g (p.run g s).2 := by
  induction p generalizing s with
  | ret a => rfl
  | draw d ih => exact ih _ _

theorem E_bind (p : Draws α) (k : α → Draws β) (f : β → ℚ) : (p.bind k).E f = p.E fun a => (k a).E f := by
  induction p with
  | ret a => rfl
  | draw d ih =>
    show avg _ = avg _
    exact congrArg avg (funext fun w => ih w)

theorem within_mono {p : Draws α} {n m : Nat} (h : Within n p) (hm : n ≤ m) : Within m p := by
  induction p generalizing n m with
  | ret a => cases m <;> trivial
  | draw d ih =>
    cases n with
    | zero => exact h.elim
    | succ n =>
      obtain ⟨m, rfl⟩ : ∃ k, m = k + 1 := ⟨m - 1, by omega⟩
      exact fun w => ih w (h w) (by omega)

theorem within_bind {p : Draws α} {k : α → Draws β} {n m : Nat} (h : Within n p) (hk : ∀ a, Gives p a → Within m (k a)) :
    Within (n + m) (p.bind k) := by
  induction p generalizing n with
  | ret a => exact within_mono (hk a (.ret a)) (by omega)
  | draw d ih =>
    cases n with
    | zero => exact h.elim
    | succ n =>
      rw [show n + 1 + m = n + m + 1 by omega]
      exact fun w => ih w (h w) fun a ha => hk a (.draw d w a ha)

theorem gives_bind {p : Draws α} {k : α → Draws β} {b : β} (h : Gives (p.bind k) b) : ∃ a, Gives p a ∧ Gives (k a) b := by
  induction p with
  | ret a => exact ⟨a, .ret a, h⟩
  | draw d ih =>
    cases h with
    | draw k' w a h =>
      obtain ⟨a', h1, h2⟩ := ih w h
      exact ⟨a', .draw d w a' h1, h2⟩

theorem gives_intro {p : Draws α} {k : α → Draws β} {a : α} {b : β} (h : Gives p a) (hk : Gives (k a) b) : Gives (p.bind k) b := by
  induction h with
  | ret a => exact hk
  | draw d w a _ ih => exact .draw _ w b (ih hk)

theorem gives_run {σ : Type} (g : Gen σ) (p : Draws α) (s : σ) : Gives p (p.run g s).1 := by
  induction p generalizing s with
  | ret a => exact .ret a
  | draw d ih => exact .draw d _ _ (ih _ _)

/-- All possible results are given by lists of words. -/
theorem gives_list {p : Draws α} {a : α} (h : Gives p a) :
    ∃ l : List (BitVec 64), (p.run ⟨fun l => (l.headD 0, l.tail)⟩ l).1 = a := by
  induction h with
  | ret a => exact ⟨[], rfl⟩
  | draw k w a _ ih =>
    obtain ⟨l, hl⟩ := ih
    exact ⟨w :: l, hl⟩

theorem E_congr {p : Draws α} {f f' : α → ℚ} (h : ∀ a, Gives p a → f a = f' a) : p.E f = p.E f' := by
  induction p with
  | ret a => exact h a (.ret a)
  | draw d ih =>
    show avg _ = avg _
    exact congrArg avg (funext fun w => ih w fun a ha => h a (.draw d w a ha))

theorem E_add (p : Draws α) (f f' : α → ℚ) : (p.E fun a => f a + f' a) = p.E f + p.E f' := by
  induction p with
  | ret a => rfl
  | draw d ih =>
    show avg _ = avg _ + avg _
    rw [← avg_add]
    exact congrArg avg (funext fun w => ih w)

theorem E_mul_const (p : Draws α) (f : α → ℚ) (c : ℚ) : (p.E fun a => f a * c) = p.E f * c := by
  induction p with
  | ret a => rfl
  | draw d ih =>
    show avg _ = avg _ * c
    rw [← avg_mul]
    exact congrArg avg (funext fun w => ih w)

theorem E_const_mul (p : Draws α) (f : α → ℚ) (c : ℚ) : (p.E fun a => c * f a) = c * p.E f := by
  simp only [mul_comm c]
  exact E_mul_const p f c

theorem E_const (p : Draws α) (c : ℚ) : (p.E fun _ => c) = c := by
  induction p with
  | ret a => rfl
  | draw d ih =>
    exact (congrArg avg (funext fun w => ih w)).trans (avg_const c)

theorem E_le {p : Draws α} {f f' : α → ℚ} (h : ∀ a, Gives p a → f a ≤ f' a) : p.E f ≤ p.E f' := by
  induction p with
  | ret a => exact h a (.ret a)
  | draw d ih =>
    exact avg_le fun w => ih w fun a ha => h a (.draw d w a ha)

/-- Means of close functions are close. -/
theorem E_close {p : Draws α} {f f' : α → ℚ} {d : ℚ} (h : ∀ a, Gives p a → |f a - f' a| ≤ d) : |p.E f - p.E f'| ≤ d := by
  have h1 : p.E f ≤ p.E fun a => f' a + d := E_le fun a ha => by have := abs_le.1 (h a ha); linarith
  have h2 : (p.E fun a => f' a + -d) ≤ p.E f := E_le fun a ha => by have := abs_le.1 (h a ha); linarith
  rw [E_add, E_const] at h1 h2
  rw [abs_le]
  constructor <;> linarith

end Draws

/-! ## The average over all lists of words -/

/-- A supply of words; zeros when it is exhausted. -/
def listGen : Gen (List (BitVec 64)) := ⟨fun l => (l.headD 0, l.tail)⟩

/-- The average over all lists of `n` words. -/
def average : Nat → (List (BitVec 64) → ℚ) → ℚ
  | 0, f => f []
  | n + 1, f => avg fun w => average n fun l => f (w :: l)

theorem average_const (n : Nat) (c : ℚ) : average n (fun _ => c) = c := by
  induction n with
  | zero => rfl
  | succ n ih =>
    exact (congrArg avg (funext fun w => ih)).trans (avg_const c)

/-- The average of a function of the result of a computation is its mean. -/
theorem average_run {α : Type} (p : Draws α) (n : Nat) (h : Draws.Within n p) (f : α → ℚ) :
    average n (fun l => f (p.run listGen l).1) = p.E f := by
  induction p generalizing n with
  | ret a => exact average_const n (f a)
  | draw d ih =>
    cases n with
    | zero => exact h.elim
    | succ n =>
      show avg _ = avg _
      exact congrArg avg (funext fun w => ih w n (h w))

/-! ## One operation -/

/-- The operation in the wide type. -/
def wideResult (T : Mca.Ty) (o : Wrapper.Arith) (a b : Bits) : Bits := mcaFun o T.wide ([a, b].map (fconv T.fmt T.wide))

theorem ew_ty (T : Mca.Ty) : 2 ≤ T.fmt.ew := by cases T <;> decide

/-- A finite operand, widened. -/
theorem widened (T : Mca.Ty) (a : Bits) (ha : a.WF T.fmt) (fa : a.Fin T.fmt) :
    (fconv T.fmt T.wide a).WF T.wide ∧ (fconv T.fmt T.wide a).Fin T.wide ∧ (fconv T.fmt T.wide a).val T.wide = a.val T.fmt := by
  obtain ⟨h1, h2, h3⟩ := operand_relative T 0 _ (eq_relative T) a _ ha fa rfl
  refine ⟨h1, h2, ?_⟩
  rw [zero_mul] at h3
  exact sub_eq_zero.1 (abs_eq_zero.1 (le_antisymm h3 (abs_nonneg _)))

/-- The wide type computes the exact result, rounded. -/
theorem wide_result (T : Mca.Ty) (o : Wrapper.Arith) (ho : o ≠ .div) (a b : Bits) (ha : a.WF T.fmt) (fa : a.Fin T.fmt) (hb : b.WF T.fmt)
    (fb : b.Fin T.fmt) : Vprec.Host T.wide (realOp o (a.val T.fmt) (b.val T.fmt)) (wideResult T o a b) := by
  obtain ⟨-, a2, a3⟩ := widened T a ha fa
  obtain ⟨-, b2, b3⟩ := widened T b hb fb
  have hu : T.wide.uexp ≤ 0 := by cases T <;> decide
  rw [← a3, ← b3]
  cases o with
  | add => exact Vprec.host_fadd _ (wide_ew T) _ _ a2 b2
  | sub => exact Vprec.host_fsub _ (wide_ew T) _ _ a2 b2
  | mul => exact Vprec.host_fmul _ (wide_ew T) hu _ _ a2 b2
  | div => exact absurd rfl ho

/-- One operation of the integer backend. -/
def opInt (sem : ShiftSem) {σ : Type} (g : Gen σ) (T : Mca.Ty) (c : Mca.Ctx) (o : Wrapper.Arith) (s : σ) (a b : Bits) : Outcome (Bits × σ) :=
  opN T (intInexact sem g T c) (mcaFun o T.wide) c s [a, b]

/-- The settings: random rounding at the precision of the type. -/
structure Random (T : Mca.Ty) (c : Mca.Ctx) : Prop where
  mode : c.mode = .rr
  daz : c.daz = false
  ftz : c.ftz = false
  dense : 1 ≤ c.sparsity
  prec : c.prec T = (T.fmt.mw + 1 : ℕ)

/-- A result the type has is returned as it is, for all words. -/
theorem op_exact (sem : ShiftSem) (T : Mca.Ty) (c : Mca.Ctx) (hc : Random T c) (o : Wrapper.Arith) (a b : Bits) (x : Bits)
    (hx : wideResult T o a b = x) (wf : x.WF T.wide) (fin : x.Fin T.wide) (hn : x.exp ≠ 0) (m : ℕ) (k : ℤ) (hm : m < 2 ^ (T.fmt.mw + 1))
    (hk : T.fmt.uexp ≤ k) (hv : |x.val T.wide| = m * 2 ^ k) (hmax : |x.val T.wide| < 2 ^ (T.fmt.bias : ℤ)) :
    ∃ r : Bits, r.WF T.fmt ∧ r.Fin T.fmt ∧ r.val T.fmt = x.val T.wide ∧
      ∀ {σ : Type} (g : Gen σ) (s : σ), opInt sem g T c o s a b = .ok (r, s) := by
  obtain ⟨c1, c2, -, c4⟩ := fconv_round T.wide T.fmt (ew_ty T) x fin (le_trans hmax.le (le_maxVal T.fmt))
  refine ⟨fconv T.wide T.fmt x, c1, c2, ?_, ?_⟩
  · obtain ⟨M, hM1, hM2⟩ : ∃ M : ℤ, |M| < 2 ^ (T.fmt.mw + 1) ∧ x.val T.wide = M * 2 ^ k := by
      have hm' : |(m : ℤ)| < 2 ^ (T.fmt.mw + 1) := by rw [abs_of_nonneg (by positivity)]; exact_mod_cast hm
      rcases abs_choice (x.val T.wide) with e | e
      · exact ⟨m, hm', by rw [← e, hv]; push_cast; rfl⟩
      · refine ⟨-m, by rw [abs_neg]; exact hm', ?_⟩
        rw [show x.val T.wide = - |x.val T.wide| by rw [e, neg_neg], hv]
        push_cast
        ring
    obtain ⟨v, v1, v2⟩ := Cancel.exists_bits T.fmt (ew_ty T) M k hM1 hk (by
      rw [← hM2]
      exact lt_of_lt_of_le hmax (zpow_le_zpow_right₀ (by norm_num) (by omega)))
    have := c4 v v1
    rw [v2, ← hM2, sub_self, abs_zero] at this
    exact sub_eq_zero.1 (abs_eq_zero.1 (le_antisymm this (abs_nonneg _)))
  · intro σ g s
    apply opN_rr T _ _ c hc.mode hc.daz hc.ftz
    show intInexact sem g T c s (wideResult T o a b) = _
    rw [hx]
    unfold intInexact
    rw [hc.prec]
    exact C22_rr_exact _ _ T c hc.mode _ (by omega) s x wf hn ⟨m, k, hm, hv⟩

/-- A wide result in the normal range of the type which the type does not have lies between two numbers of the type. -/
theorem between_or_exact (T : Mca.Ty) (x : Bits) (wf : x.WF T.wide) (fin : x.Fin T.wide) (h1 : (2 : ℚ) ^ (2 - (T.fmt.bias : ℤ)) ≤ |x.val T.wide|)
    (h2 : |x.val T.wide| < 2 ^ ((T.fmt.bias : ℤ) - 1)) :
    x.exp ≠ 0 ∧ ((∃ (m : ℕ) (k : ℤ), m < 2 ^ (T.fmt.mw + 1) ∧ T.fmt.uexp ≤ k ∧ |x.val T.wide| = m * 2 ^ k) ∨
    ∃ lo hi, Between T lo hi x ∧ hi.WF T.fmt ∧ hi.Fin T.fmt ∧ lo.Fin T.fmt ∧
      |hi.val T.fmt| - |lo.val T.fmt| ≤ 2 ^ (-(T.fmt.mw : ℤ)) * |lo.val T.fmt|) := by
  obtain ⟨hmw, hbias, hF1, hL1, -, -, -, hu, hei⟩ := ty_facts T
  have huw : T.wide.uexp = 1 - (T.wide.bias : ℤ) - T.wide.mw := rfl
  have hut : T.fmt.uexp = 1 - (T.fmt.bias : ℤ) - T.fmt.mw := rfl
  have hinf := expInf_bias T.fmt (ew_ty T)
  have hgu : (0 : ℚ) < 2 ^ T.wide.uexp := zpow_pos (by norm_num) _
  have hfu : (0 : ℚ) < 2 ^ T.fmt.uexp := zpow_pos (by norm_num) _
  rw [abs_val_mag] at h1 h2
  -- the bounds on the magnitude
  have m1 : 2 ^ (T.off + T.wide.mw + 1) ≤ x.mag T.wide := by
    have e : (2 : ℚ) ^ (2 - (T.fmt.bias : ℤ)) = ((2 ^ (T.off + T.wide.mw + 1) : ℕ) : ℚ) * 2 ^ T.wide.uexp := by
      push_cast
      rw [← zpow_natCast (2 : ℚ), ← zpow_add₀ (by norm_num)]
      congr 1
      push_cast
      omega
    rw [e] at h1
    exact_mod_cast le_of_mul_le_mul_right h1 hgu
  have m2 : x.mag T.wide < 2 ^ (T.fmt.bias + T.wide.bias + T.wide.mw - 2) := by
    have e : (2 : ℚ) ^ ((T.fmt.bias : ℤ) - 1) = ((2 ^ (T.fmt.bias + T.wide.bias + T.wide.mw - 2) : ℕ) : ℚ) * 2 ^ T.wide.uexp := by
      push_cast
      rw [← zpow_natCast (2 : ℚ), ← zpow_add₀ (by norm_num)]
      congr 1
      have : 2 ≤ T.fmt.bias := by cases T <;> decide
      omega
    rw [e] at h2
    exact_mod_cast lt_of_mul_lt_mul_right h2 hgu.le
  have hx1 : 1 ≤ x.exp := by
    by_contra hz
    rw [mag_subnormal _ _ (by omega)] at m1
    have h3 := wf.2
    have : 2 ^ T.wide.mw ≤ 2 ^ (T.off + T.wide.mw + 1) := Nat.pow_le_pow_right (by norm_num) (by omega)
    omega
  obtain ⟨sx, hsx⟩ : ∃ sx, sx = 2 ^ T.wide.mw + x.man := ⟨_, rfl⟩
  have hmag : x.mag T.wide = sx * 2 ^ (x.exp - 1) := by rw [hsx]; exact mag_normal _ _ (by omega)
  have hs1 : 2 ^ T.wide.mw ≤ sx := by omega
  have hs2 : sx < 2 ^ (T.wide.mw + 1) := by have := wf.2; rw [pow_succ]; omega
  have hk : T.off + 2 ≤ x.exp := by
    have h3 : 2 ^ (T.off + T.wide.mw + 1) < 2 ^ (T.wide.mw + 1 + (x.exp - 1)) := by
      rw [pow_add _ (T.wide.mw + 1)]
      exact lt_of_le_of_lt m1 (by rw [hmag]; exact Nat.mul_lt_mul_of_pos_right hs2 (by positivity))
    have := (Nat.pow_lt_pow_iff_right (by norm_num)).1 h3
    omega
  have hk2 : x.exp + 2 < T.off + T.fmt.expInf := by
    have h3 : 2 ^ (T.wide.mw + (x.exp - 1)) < 2 ^ (T.fmt.bias + T.wide.bias + T.wide.mw - 2) := by
      refine lt_of_le_of_lt ?_ m2
      rw [hmag, pow_add]
      exact Nat.mul_le_mul_right _ hs1
    have := (Nat.pow_lt_pow_iff_right (by norm_num)).1 h3
    omega
  refine ⟨by omega, ?_⟩
  obtain ⟨k, hxe⟩ : ∃ k, x.exp = k + T.off + 1 := ⟨x.exp - T.off - 1, by omega⟩
  obtain ⟨r, hr⟩ : ∃ r, r = sx / 2 ^ T.low := ⟨_, rfl⟩
  obtain ⟨f, hf⟩ : ∃ f, f = sx % 2 ^ T.low := ⟨_, rfl⟩
  have hdm : sx = r * 2 ^ T.low + f := by rw [hr, hf, mul_comm]; exact (Nat.div_add_mod _ _).symm
  have hf2 : f < 2 ^ T.low := by rw [hf]; exact Nat.mod_lt _ (by positivity)
  have hr1 : 2 ^ T.fmt.mw ≤ r := by
    rw [hr, Nat.le_div_iff_mul_le (by positivity), ← pow_add, ← hmw]; exact hs1
  have hr2 : r < 2 ^ (T.fmt.mw + 1) := by
    rw [hr, Nat.div_lt_iff_lt_mul (by positivity), ← pow_add, show T.fmt.mw + 1 + T.low = T.wide.mw + 1 by omega]; exact hs2
  have hscale : (2 : ℚ) ^ T.fmt.uexp = 2 ^ (T.off + T.low) * 2 ^ T.wide.uexp := by
    rw [← zpow_natCast 2 (T.off + T.low), ← zpow_add₀ (by norm_num)]; congr 1; omega
  by_cases h0 : f = 0
  · left
    refine ⟨r, T.fmt.uexp + k, hr2, by omega, ?_⟩
    rw [abs_val_mag, hmag, hdm, h0, hxe, zpow_add₀ (by norm_num), hscale, zpow_natCast, Nat.add_sub_cancel]
    push_cast
    rw [pow_add, pow_add]
    ring
  · right
    have hlom : (ofPat T.fmt x.sign (k * 2 ^ T.fmt.mw + r)).mag T.fmt = r * 2 ^ k := mag_ofPat_enc _ _ _ _ (Or.inr hr1) hr2.le
    have hhim : (ofPat T.fmt x.sign (k * 2 ^ T.fmt.mw + r + 1)).mag T.fmt = (r + 1) * 2 ^ k := by
      rw [Nat.add_assoc]; exact mag_ofPat_enc _ _ _ _ (Or.inr (by omega)) hr2
    have hexp : ∀ p, p ≤ k * 2 ^ T.fmt.mw + r + 1 → p / 2 ^ T.fmt.mw < T.fmt.expInf := by
      intro p hp
      rw [Nat.div_lt_iff_lt_mul (by positivity)]
      have h3 : (k + 3) * 2 ^ T.fmt.mw ≤ T.fmt.expInf * 2 ^ T.fmt.mw := Nat.mul_le_mul_right _ (by omega)
      have h4 : (k + 3) * 2 ^ T.fmt.mw = k * 2 ^ T.fmt.mw + 2 ^ T.fmt.mw + 2 ^ (T.fmt.mw + 1) := by rw [pow_succ]; ring
      have : 1 ≤ 2 ^ T.fmt.mw := Nat.one_le_two_pow
      omega
    have hwf : ∀ p, p ≤ k * 2 ^ T.fmt.mw + r + 1 → (ofPat T.fmt x.sign p).WF T.fmt ∧ (ofPat T.fmt x.sign p).exp < T.fmt.expInf :=
      fun p hp => ⟨⟨lt_of_lt_of_le (hexp p hp) (Vprec.expInf_lt T.fmt).le, Nat.mod_lt _ (by positivity)⟩, hexp p hp⟩
    obtain ⟨l1, l2⟩ := hwf _ (Nat.le_succ (k * 2 ^ T.fmt.mw + r))
    obtain ⟨u1, u2⟩ := hwf _ le_rfl
    have hcast : |x.val T.wide| = ((r * 2 ^ T.low + f : ℕ) : ℚ) * 2 ^ (k + T.off) * 2 ^ T.wide.uexp := by
      rw [abs_val_mag, hmag, hdm, hxe, Nat.add_sub_cancel]
      push_cast
      rfl
    have p1 : (0 : ℚ) < 2 ^ (k + T.off) * 2 ^ T.wide.uexp := by positivity
    refine ⟨ofPat T.fmt x.sign (k * 2 ^ T.fmt.mw + r), ofPat T.fmt x.sign (k * 2 ^ T.fmt.mw + r + 1),
      ⟨wf, fin, l1, rfl, by rw [pat_ofPat], l2, ?_, ?_, ?_⟩, u1, by unfold Bits.Fin; omega, by unfold Bits.Fin; omega, ?_⟩
    · rw [pat_ofPat]
      have h4 : 1 * 2 ^ T.fmt.mw ≤ k * 2 ^ T.fmt.mw := Nat.mul_le_mul_right _ (by omega)
      have : 1 ≤ 2 ^ T.fmt.mw := Nat.one_le_two_pow
      omega
    · rw [hcast, abs_val_mag, hlom, hscale]
      have : (((r * 2 ^ T.low : ℕ) : ℚ)) < ((r * 2 ^ T.low + f : ℕ) : ℚ) := by exact_mod_cast (by omega)
      have := mul_lt_mul_of_pos_right this p1
      push_cast at this ⊢
      rw [pow_add, pow_add] at *
      linarith
    · rw [hcast, abs_val_mag, hhim, hscale]
      have : ((r * 2 ^ T.low + f : ℕ) : ℚ) < (((r + 1) * 2 ^ T.low : ℕ) : ℚ) := by
        have : r * 2 ^ T.low + f < (r + 1) * 2 ^ T.low := by rw [Nat.add_mul, Nat.one_mul]; omega
        exact_mod_cast this
      have := mul_lt_mul_of_pos_right this p1
      push_cast at this ⊢
      rw [pow_add, pow_add] at *
      linarith
    · rw [abs_val_mag, abs_val_mag, hlom, hhim]
      have hq : (2 : ℚ) ^ T.fmt.mw ≤ r := by exact_mod_cast hr1
      have p2 : (0 : ℚ) < 2 ^ k * 2 ^ T.fmt.uexp := by positivity
      have p3 : (0 : ℚ) < 2 ^ T.fmt.mw := by positivity
      have : (1 : ℚ) ≤ 2 ^ (-(T.fmt.mw : ℤ)) * r := by
        rw [zpow_neg, zpow_natCast, inv_mul_eq_div, le_div_iff₀ p3, one_mul]; exact hq
      have := mul_le_mul_of_nonneg_right this p2.le
      push_cast
      linarith

/-- The error of the mean of an operation: the last bit of the wide type. -/
def meanErr (T : Mca.Ty) : ℚ := 2 ^ (1 - (T.wide.mw : ℤ))

/-- One more than the relative error of one result. -/
def grow (T : Mca.Ty) : ℚ := 1 + 2 ^ (1 - (T.fmt.mw : ℤ))

/-- What is known of an operation as a computation that draws. -/
structure OpDraws (sem : ShiftSem) (T : Mca.Ty) (c : Mca.Ctx) (o : Wrapper.Arith) (a b : Bits) (z : ℚ) (p : Draws Bits) : Prop where
  within : p.Within 1
  run : ∀ {σ : Type} (g : Gen σ) (s : σ), opInt sem g T c o s a b = .ok (p.run g s)
  gives : ∀ r, p.Gives r → r.WF T.fmt ∧ r.Fin T.fmt ∧ |r.val T.fmt - z| ≤ (grow T - 1) * |z|
  mean : |(p.E fun r => r.val T.fmt) - z| ≤ meanErr T * |z|

/-- A result close to the exact one that needs no word. -/
theorem opDraws_ret (sem : ShiftSem) (T : Mca.Ty) (c : Mca.Ctx) (o : Wrapper.Arith) (a b : Bits) (z : ℚ) (r : Bits) (h1 : r.WF T.fmt)
    (h2 : r.Fin T.fmt) (h3 : |r.val T.fmt - z| ≤ |z| * 2 ^ (-(T.wide.mw : ℤ) - 1))
    (h4 : ∀ {σ : Type} (g : Gen σ) (s : σ), opInt sem g T c o s a b = .ok (r, s)) :
    OpDraws sem T c o a b z (.ret r) := by
  have e1 : (2 : ℚ) ^ (-(T.wide.mw : ℤ) - 1) ≤ meanErr T := zpow_le_zpow_right₀ (by norm_num) (by omega)
  have e2 : (2 : ℚ) ^ (-(T.wide.mw : ℤ) - 1) ≤ 2 ^ (1 - (T.fmt.mw : ℤ)) := zpow_le_zpow_right₀ (by norm_num) (by cases T <;> decide)
  have hz := abs_nonneg z
  refine ⟨trivial, fun g s => h4 g s, ?_, ?_⟩
  · intro r' h
    cases h
    refine ⟨h1, h2, ?_⟩
    have := mul_le_mul_of_nonneg_left e2 hz
    unfold grow
    linarith
  · have := mul_le_mul_of_nonneg_left e1 hz
    show |r.val T.fmt - z| ≤ _
    linarith

theorem avg_two (p : BitVec 64 → Prop) [DecidablePred p] (a b : ℚ) :
    (avg fun w => if p w then b else a) = a + Nat.count (fun n => p (BitVec.ofNat 64 n)) (2 ^ 64) * (b - a) / 2 ^ 64 := by
  have h := sum_two (fun n => p (BitVec.ofNat 64 n)) (fun n => if p (BitVec.ofNat 64 n) then b else a) a b 0 (2 ^ 64) fun _ => rfl
  simp only [sub_zero] at h
  unfold avg
  rw [h]
  generalize Nat.count (fun n => p (BitVec.ofNat 64 n)) (2 ^ 64) = n
  rw [Nat.cast_pow, Nat.cast_ofNat, add_div, mul_div_cancel_left₀ a (by positivity)]

/-- The mean between two neighbours. -/
theorem mean_between (s l h x : ℚ) (hs : |s| = 1) (L f e : ℕ) (hL : L ≤ 64) (he : e ≤ 1) (hef : e ≤ f) (hlh : l < h)
    (hpos : (x - l) / (h - l) = f / 2 ^ L) :
    |s * l + ((2 ^ (64 - L) * (f - e) : ℕ) : ℚ) * (s * h - s * l) / 2 ^ 64 - s * x| ≤ (h - l) / 2 ^ L := by
  have hd : 0 < h - l := by linarith
  have hx : x = l + f / 2 ^ L * (h - l) := by rw [← hpos]; field_simp; ring
  have h64 : (2 : ℚ) ^ 64 = 2 ^ L * 2 ^ (64 - L) := by rw [← pow_add]; congr 1; omega
  have hp : (0 : ℚ) < 2 ^ (64 - L) := by positivity
  have hq : (0 : ℚ) < 2 ^ L := by positivity
  have key : s * l + ((2 ^ (64 - L) * (f - e) : ℕ) : ℚ) * (s * h - s * l) / 2 ^ 64 - s * x = - (s * (e * ((h - l) / 2 ^ L))) := by
    rw [hx, h64]
    push_cast [Nat.cast_sub hef]
    field_simp
    ring
  rw [key, abs_neg, abs_mul, hs, one_mul, abs_of_nonneg (by positivity)]
  have he' : (e : ℚ) ≤ 1 := by exact_mod_cast he
  have := mul_le_mul_of_nonneg_right he' (show 0 ≤ (h - l) / 2 ^ L by positivity)
  linarith

/-- An operation that draws. -/
theorem opDraws_between (sem : ShiftSem) (T : Mca.Ty) (c : Mca.Ctx) (hc : Random T c) (o : Wrapper.Arith) (a b : Bits) (z : ℚ)
    (lo hi : Bits) (h : Between T lo hi (wideResult T o a b)) (hw : hi.WF T.fmt) (hf : hi.Fin T.fmt) (lf : lo.Fin T.fmt)
    (hs : |hi.val T.fmt| - |lo.val T.fmt| ≤ 2 ^ (-(T.fmt.mw : ℤ)) * |lo.val T.fmt|)
    (hz : |(wideResult T o a b).val T.wide - z| ≤ |z| * 2 ^ (-(T.wide.mw : ℤ) - 1)) :
    ∃ p, OpDraws sem T c o a b z p := by
  obtain ⟨x, hx⟩ : ∃ x, x = wideResult T o a b := ⟨_, rfl⟩
  rw [← hx] at h hz
  obtain ⟨hmw, -, hF1, hL1, hL64, -, -, -, -⟩ := ty_facts T
  obtain ⟨f, f0, f1, hpat, hpos, e1, e2⟩ := between_pat T lo hi x h
  obtain ⟨e, he, he1⟩ : ∃ e : ℕ, (e : ℤ) = (if lo.pat T.fmt % 2 = 1 then 0 else 1) ∧ e ≤ 1 := by
    split_ifs
    · exact ⟨0, rfl, by omega⟩
    · exact ⟨1, rfl, by omega⟩
  obtain ⟨t, ht⟩ : ∃ t : ℕ, t = 2 ^ T.low - f + e := ⟨_, rfl⟩
  have ht' : ((2 ^ T.low : ℕ) : ℤ) - f + (if lo.pat T.fmt % 2 = 1 then 0 else 1) = (t : ℤ) := by
    rw [← he, ht]; push_cast [Nat.cast_sub f1.le]; ring
  have hx' : mcaFun o T.wide ([a, b].map (fconv T.fmt T.wide)) = x := hx.symm
  have hsx : hi.sign = x.sign := by rw [h.succ]; rfl
  have sabs : ∀ (F : Fmt) (y : Bits), y.val F = sgn y.sign * |y.val F| := by
    intro F y
    rw [abs_val_mag, val_eq_mag, mul_assoc]
  have ha := h.above
  have hb := h.below
  have hz0 := abs_nonneg z
  have hu : (2 : ℚ) ^ (-(T.wide.mw : ℤ) - 1) ≤ 2 ^ (-3 : ℤ) := zpow_le_zpow_right₀ (by norm_num) (by cases T <;> decide)
  have hv : (2 : ℚ) ^ (-(T.fmt.mw : ℤ)) ≤ 2 ^ (-3 : ℤ) := zpow_le_zpow_right₀ (by norm_num) (by cases T <;> decide)
  have hv0 : (0 : ℚ) < 2 ^ (-(T.fmt.mw : ℤ)) := zpow_pos (by norm_num) _
  have hu0 : (0 : ℚ) < 2 ^ (-(T.wide.mw : ℤ) - 1) := zpow_pos (by norm_num) _
  have huv : (2 : ℚ) ^ (-(T.wide.mw : ℤ) - 1) ≤ 2 ^ (-(T.fmt.mw : ℤ)) * 2 ^ (-1 : ℤ) := by
    rw [← zpow_add₀ (by norm_num)]
    exact zpow_le_zpow_right₀ (by norm_num) (by cases T <;> decide)
  have hg : grow T = 1 + 2 ^ (-(T.fmt.mw : ℤ)) * 2 := by
    unfold grow
    rw [show 1 - (T.fmt.mw : ℤ) = -(T.fmt.mw : ℤ) + 1 by ring, zpow_add₀ (by norm_num), zpow_one]
  have hme : meanErr T = 2 ^ (-(T.wide.mw : ℤ) - 1) * 4 := by
    unfold meanErr
    rw [show 1 - (T.wide.mw : ℤ) = -(T.wide.mw : ℤ) - 1 + 2 by ring, zpow_add₀ (by norm_num)]
    norm_num
  have hlowz : (2 : ℚ) ^ (-(T.fmt.mw : ℤ)) / 2 ^ T.low = 2 ^ (-(T.wide.mw : ℤ) - 1) * 2 := by
    rw [div_eq_mul_inv, ← zpow_natCast (2 : ℚ) T.low, ← zpow_neg, ← zpow_add₀ (by norm_num), ← zpow_add_one₀ (by norm_num)]
    congr 1
    rw [hmw]
    push_cast
    ring
  have hxz : |x.val T.wide| ≤ |z| * (1 + 2 ^ (-(T.wide.mw : ℤ) - 1)) := by
    have := abs_sub_abs_le_abs_sub (x.val T.wide) z
    linarith
  rw [show (2 : ℚ) ^ (-3 : ℤ) = 1 / 8 by norm_num] at hu hv
  rw [show (2 : ℚ) ^ (-1 : ℤ) = 1 / 2 by norm_num] at huv
  refine ⟨.draw fun w => .ret (if (t : ℤ) ≤ w.toInt / 2 ^ (64 - T.low) + 2 ^ (T.low - 1) then hi else lo), fun w => trivial, ?_, ?_, ?_⟩
  · intro σ g s
    unfold opInt
    rw [int_op sem g T c hc.mode hc.daz hc.ftz hc.dense hc.prec (mcaFun o T.wide) [a, b] lo hi (by rw [hx']; exact h) f f0 f1
      (by rw [hx']; exact hpat) (by rw [hx']; exact e1) (by rw [hx']; exact e2) s, ht']
    rfl
  · intro r hr
    have : r = hi ∨ r = lo := by
      cases hr with
      | draw k w a hr =>
        cases hr
        split_ifs
        · exact .inl rfl
        · exact .inr rfl
    generalize (2 : ℚ) ^ (-(T.wide.mw : ℤ) - 1) = u at *
    generalize (2 : ℚ) ^ (-(T.fmt.mw : ℤ)) = v at *
    rw [hg]
    have t2 : v * |x.val T.wide| ≤ v * (|z| * (1 + u)) := mul_le_mul_of_nonneg_left hxz hv0.le
    have t3 : v * (1 + u) + u ≤ v * 2 := by nlinarith
    have t4 := mul_le_mul_of_nonneg_left t3 hz0
    have t5 : v * |lo.val T.fmt| ≤ v * |x.val T.wide| := mul_le_mul_of_nonneg_left hb.le hv0.le
    have near : ∀ y : Bits, y.sign = x.sign → |(|y.val T.fmt| - |x.val T.wide|)| ≤ v * |x.val T.wide| →
        |y.val T.fmt - z| ≤ (1 + v * 2 - 1) * |z| := by
      intro y hy hd
      have h1 : |sgn x.sign| = 1 := by rcases sgn_cases x.sign with e | e <;> rw [e] <;> norm_num
      have e : y.val T.fmt - x.val T.wide = sgn x.sign * (|y.val T.fmt| - |x.val T.wide|) := by
        rw [mul_sub, ← sabs T.wide x, ← hy, ← sabs T.fmt y]
      have t1 := abs_sub_le (y.val T.fmt) (x.val T.wide) z
      rw [e, abs_mul, h1, one_mul] at t1
      linarith
    rcases this with rfl | rfl
    · exact ⟨hw, hf, near _ hsx (by rw [abs_le]; constructor <;> linarith)⟩
    · exact ⟨h.wflo, lf, near _ h.sign (by rw [abs_le]; constructor <;> linarith)⟩
  · show |(avg fun w => Bits.val T.fmt (if (t : ℤ) ≤ w.toInt / 2 ^ (64 - T.low) + 2 ^ (T.low - 1) then hi else lo)) - z| ≤ _
    have hfun : (fun w : BitVec 64 => Bits.val T.fmt (if (t : ℤ) ≤ w.toInt / 2 ^ (64 - T.low) + 2 ^ (T.low - 1) then hi else lo)) =
        fun w => if (t : ℤ) ≤ w.toInt / 2 ^ (64 - T.low) + 2 ^ (T.low - 1) then hi.val T.fmt else lo.val T.fmt := by
      funext w
      split_ifs <;> rfl
    have hcount : 2 ^ (64 - T.low) * (2 ^ T.low - t) = 2 ^ (64 - T.low) * (f - e) := by congr 1; omega
    rw [hfun, avg_two, count_noise T.low t hL1 hL64, hcount]
    have h1 : |sgn x.sign| = 1 := by rcases sgn_cases x.sign with e | e <;> rw [e] <;> norm_num
    have m := mean_between (sgn x.sign) |lo.val T.fmt| |hi.val T.fmt| |x.val T.wide| h1 T.low f e hL64 he1 (by omega) (by linarith) hpos
    rw [← sabs T.wide x] at m
    nth_rewrite 1 [← h.sign] at m
    rw [← sabs T.fmt lo, ← hsx, ← sabs T.fmt hi, hsx, ← h.sign, ← sabs T.fmt lo] at m
    have m2 : (|hi.val T.fmt| - |lo.val T.fmt|) / 2 ^ T.low ≤ 2 ^ (-(T.wide.mw : ℤ) - 1) * 2 * |x.val T.wide| := by
      rw [← hlowz]
      have : (|hi.val T.fmt| - |lo.val T.fmt|) / 2 ^ T.low ≤ 2 ^ (-(T.fmt.mw : ℤ)) * |lo.val T.fmt| / 2 ^ T.low :=
        div_le_div_of_nonneg_right hs (by positivity)
      refine this.trans ?_
      rw [mul_div_right_comm]
      exact mul_le_mul_of_nonneg_left hb.le (by positivity)
    rw [hme]
    generalize lo.val T.fmt + ((2 ^ (64 - T.low) * (f - e) : ℕ) : ℚ) * (hi.val T.fmt - lo.val T.fmt) / 2 ^ 64 = μ at *
    generalize (2 : ℚ) ^ (-(T.wide.mw : ℤ) - 1) = u at *
    have t1 := abs_sub_le μ (x.val T.wide) z
    have t2 : u * 2 * |x.val T.wide| ≤ u * 2 * (|z| * (1 + u)) := mul_le_mul_of_nonneg_left hxz (by linarith)
    have t3 : u * 2 * (1 + u) + u ≤ u * 4 := by nlinarith
    have := mul_le_mul_of_nonneg_left t3 hz0
    linarith

/-- The exact result of an operation, when it has the mean we want: not too large, and for products not too small. -/
def InRange (T : Mca.Ty) (o : Wrapper.Arith) (z : ℚ) : Prop :=
  |z| < 2 ^ ((T.fmt.bias : ℤ) - 2) ∧ (o = .mul → z = 0 ∨ (2 : ℚ) ^ (2 - (T.fmt.bias : ℤ)) ≤ |z|)

/-- Sums and differences are multiples of the smallest number. -/
theorem sum_multiple (T : Mca.Ty) (o : Wrapper.Arith) (ho : o = .add ∨ o = .sub) (a b : Bits) :
    ∃ M : ℤ, realOp o (a.val T.fmt) (b.val T.fmt) = M * 2 ^ T.fmt.uexp := by
  rcases ho with rfl | rfl
  · exact ⟨a.imag T.fmt + b.imag T.fmt, by simp only [realOp]; rw [val_eq_imag, val_eq_imag]; push_cast; ring⟩
  · exact ⟨a.imag T.fmt - b.imag T.fmt, by simp only [realOp]; rw [val_eq_imag, val_eq_imag]; push_cast; ring⟩

/-- Additions, subtractions and multiplications as computations that draw. -/
theorem op_draws (sem : ShiftSem) (T : Mca.Ty) (c : Mca.Ctx) (hc : Random T c) (o : Wrapper.Arith) (ho : o ≠ .div) (a b : Bits)
    (ha : a.WF T.fmt) (fa : a.Fin T.fmt) (hb : b.WF T.fmt) (fb : b.Fin T.fmt)
    (hr : InRange T o (realOp o (a.val T.fmt) (b.val T.fmt))) :
    ∃ p, OpDraws sem T c o a b (realOp o (a.val T.fmt) (b.val T.fmt)) p := by
  have host := wide_result T o ho a b ha fa hb fb
  have hmul := sum_multiple T o
  obtain ⟨z, hz⟩ : ∃ z, z = realOp o (a.val T.fmt) (b.val T.fmt) := ⟨_, rfl⟩
  obtain ⟨x, hx⟩ : ∃ x, x = wideResult T o a b := ⟨_, rfl⟩
  rw [← hz] at hr host ⊢
  rw [← hx] at host
  obtain ⟨hr1, hr2⟩ := hr
  obtain ⟨r1, r2, r3⟩ := fmt_wide_range T
  have hwu : T.wide.uexp = 1 - (T.wide.bias : ℤ) - T.wide.mw := rfl
  have htu : T.fmt.uexp = 1 - (T.fmt.bias : ℤ) - T.fmt.mw := rfl
  have hub : 1 - (T.wide.bias : ℤ) ≤ T.fmt.uexp ∧ T.wide.uexp ≤ T.fmt.uexp ∧ T.fmt.mw + 1 ≤ T.wide.mw ∧ 4 ≤ T.fmt.bias := by cases T <;> decide
  obtain ⟨b1, b2, b3, b4⟩ := hub
  have hsmall : |z| < 2 ^ (T.wide.bias : ℤ) := lt_of_lt_of_le hr1 (zpow_le_zpow_right₀ (by norm_num) (by omega))
  by_cases h0 : z = 0
  · have hres := (result_relative T 0 le_rfl (by norm_num) _ (eq_relative T) z x x host rfl).1 h0
    have hzero : x.isZero := by
      have hwf : x.exp < T.wide.expInf := by
        by_contra hn
        have := (host.inf hn).2
        rw [h0, abs_zero] at this
        have h2 : (0 : ℚ) < Vprec.overflowFrom T.wide.mw T.wide.bias := by
          unfold Vprec.overflowFrom
          apply mul_pos _ (zpow_pos (by norm_num) _)
          have : (1 : ℚ) < 2 ^ (T.wide.mw + 2) := one_lt_pow₀ (by norm_num) (by omega)
          linarith
        linarith
      have hv : x.val T.wide = 0 := by
        have := host.near hwf (zeroBits false) ⟨by simp [zeroBits], by simp [zeroBits]⟩
        rw [Vprec.val_zero, h0, sub_zero, sub_zero, abs_zero] at this
        exact abs_eq_zero.1 (le_antisymm this (abs_nonneg _))
      by_contra hn
      have := val_ge T.wide x hn
      rw [hv, abs_zero] at this
      have := zpow_pos (show (0 : ℚ) < 2 by norm_num) T.wide.uexp
      linarith
    refine ⟨_, opDraws_ret sem T c o a b z (fconv T.wide T.fmt x) (fconv_wf T.wide T.fmt (by cases T <;> decide) x) hres.1 ?_ ?_⟩
    · rw [hres.2, h0]; simp
    · intro σ g s
      apply opN_rr T _ _ c hc.mode hc.daz hc.ftz
      show intInexact sem g T c s (wideResult T o a b) = _
      rw [← hx]
      exact C22_special _ _ _ (wide_ew T) c _ s x (.inl hzero)
  by_cases h1 : (2 : ℚ) ^ (2 - (T.fmt.bias : ℤ)) ≤ |z|
  · obtain ⟨w1, w2⟩ := host_rel T.wide (wide_ew T) z x host
      (le_trans (zpow_le_zpow_right₀ (by norm_num) (by omega)) h1) hsmall
    have hexp : x.exp < T.wide.expInf := fin_lt host.wf w1
    have hu : (2 : ℚ) ^ (-(T.wide.mw : ℤ) - 1) ≤ 2 ^ (-1 : ℤ) := zpow_le_zpow_right₀ (by norm_num) (by omega)
    rw [show (2 : ℚ) ^ (-1 : ℤ) = 1 / 2 by norm_num] at hu
    have x1 : (2 : ℚ) ^ (2 - (T.fmt.bias : ℤ)) ≤ |x.val T.wide| := by
      by_contra hlt
      rw [not_le] at hlt
      have p0 : (0 : ℚ) < 2 ^ (2 - (T.fmt.bias : ℤ)) := zpow_pos (by norm_num) _
      have fit : ∀ m : ℤ, |m| = 1 → |(m : ℚ) * 2 ^ (2 - (T.fmt.bias : ℤ))| < 2 ^ ((T.wide.bias : ℤ) + 1) := by
        intro m hm
        have : |(m : ℚ)| = 1 := by rw [← Int.cast_abs, hm, Int.cast_one]
        rw [abs_mul, this, one_mul, abs_of_pos p0]
        exact zpow_lt_zpow_right₀ (by norm_num) (by omega)
      have one : (1 : ℤ) < 2 ^ (T.wide.mw + 1) := one_lt_pow₀ (by norm_num) (by omega)
      obtain ⟨v, v1, v2⟩ := Cancel.exists_bits T.wide (wide_ew T) 1 (2 - (T.fmt.bias : ℤ)) (by rw [abs_one]; exact one) (by omega) (fit 1 (by norm_num))
      obtain ⟨v', v1', v2'⟩ := Cancel.exists_bits T.wide (wide_ew T) (-1) (2 - (T.fmt.bias : ℤ)) (by rw [abs_neg, abs_one]; exact one) (by omega)
        (fit (-1) (by norm_num))
      have n1 := host.near hexp v v1
      have n2 := host.near hexp v' v1'
      rw [v2] at n1
      rw [v2'] at n2
      push_cast at n1 n2
      generalize (2 : ℚ) ^ (2 - (T.fmt.bias : ℤ)) = P at *
      obtain ⟨q1, q2⟩ := abs_lt.1 hlt
      rcases le_abs.1 h1 with hp | hp
      · rw [abs_of_nonpos (by linarith : 1 * P - z ≤ 0), abs_of_nonpos (by linarith)] at n1
        linarith
      · rw [abs_of_nonneg (by linarith : 0 ≤ -1 * P - z), abs_of_nonneg (by linarith)] at n2
        linarith
    have x2 : |x.val T.wide| < 2 ^ ((T.fmt.bias : ℤ) - 1) := by
      have e4 : (2 : ℚ) ^ ((T.fmt.bias : ℤ) - 1) = 2 ^ ((T.fmt.bias : ℤ) - 2) * 2 := by
        rw [← zpow_add_one₀ (by norm_num)]; congr 1; ring
      have := abs_sub_abs_le_abs_sub (x.val T.wide) z
      have hz0 := abs_nonneg z
      have := mul_le_mul_of_nonneg_left hu hz0
      rw [e4]
      linarith
    obtain ⟨hn, h | ⟨lo, hi, k1, k2, k3, k4, k5⟩⟩ := between_or_exact T x host.wf w1 x1 x2
    · obtain ⟨m, k, m1, m2, m3⟩ := h
      obtain ⟨r, y1, y2, y3, y4⟩ := op_exact sem T c hc o a b x hx.symm host.wf w1 hn m k m1 m2 m3
        (lt_trans x2 (zpow_lt_zpow_right₀ (by norm_num) (by omega)))
      exact ⟨_, opDraws_ret sem T c o a b z r y1 y2 (by rw [y3]; exact w2) y4⟩
    · exact opDraws_between sem T c hc o a b z lo hi (by rw [← hx]; exact k1) k2 k3 k4 k5 (by rw [← hx]; exact w2)
  · rw [not_le] at h1
    have hos : o = .add ∨ o = .sub := by
      cases o with
      | add => exact .inl rfl
      | sub => exact .inr rfl
      | mul =>
        rcases hr2 rfl with h | h
        · exact absurd h h0
        · linarith
      | div => exact absurd rfl ho
    obtain ⟨M, hM⟩ := hmul hos a b
    rw [← hz] at hM
    have p0 : (0 : ℚ) < 2 ^ T.fmt.uexp := zpow_pos (by norm_num) _
    have habs : |z| = |(M : ℚ)| * 2 ^ T.fmt.uexp := by rw [hM, abs_mul, abs_of_pos p0]
    have hMb : |M| < 2 ^ (T.fmt.mw + 1) := by
      have e : (2 : ℚ) ^ (2 - (T.fmt.bias : ℤ)) = ((2 ^ (T.fmt.mw + 1) : ℤ) : ℚ) * 2 ^ T.fmt.uexp := by
        push_cast
        rw [← zpow_natCast, ← zpow_add₀ (by norm_num)]
        congr 1
        push_cast
        omega
      rw [habs, e] at h1
      have := lt_of_mul_lt_mul_right h1 p0.le
      rw [← Int.cast_abs] at this
      exact_mod_cast this
    have hM0 : M ≠ 0 := by
      rintro rfl
      exact h0 (by rw [hM]; simp)
    have hzlow : (2 : ℚ) ^ T.fmt.uexp ≤ |z| := by
      have : (1 : ℚ) ≤ |(M : ℚ)| := by
        rw [← Int.cast_abs]
        exact_mod_cast Int.one_le_abs hM0
      have := mul_le_mul_of_nonneg_right this p0.le
      rw [habs]
      linarith
    obtain ⟨w1, w2⟩ := host_rel T.wide (wide_ew T) z x host
      (le_trans (zpow_le_zpow_right₀ (by norm_num) (by omega)) hzlow) hsmall
    have hexp : x.exp < T.wide.expInf := fin_lt host.wf w1
    have hxz : x.val T.wide = z := by
      obtain ⟨v, v1, v2⟩ := Cancel.exists_bits T.wide (wide_ew T) M T.fmt.uexp
        (lt_of_lt_of_le hMb (pow_le_pow_right₀ (by norm_num) (by omega))) b2 (by
          rw [← hM]
          exact lt_trans hsmall (zpow_lt_zpow_right₀ (by norm_num) (by omega)))
      have := host.near hexp v v1
      rw [v2, ← hM, sub_self, abs_zero] at this
      exact sub_eq_zero.1 (abs_eq_zero.1 (le_antisymm this (abs_nonneg _)))
    have hn : x.exp ≠ 0 := by
      intro he
      have h3 : |x.val T.wide| < 2 ^ T.fmt.uexp := by
        rw [abs_val_mag, mag_subnormal _ _ he]
        have : ((x.man : ℕ) : ℚ) < 2 ^ T.wide.mw := by exact_mod_cast host.wf.2
        have := mul_lt_mul_of_pos_right this (zpow_pos (show (0 : ℚ) < 2 by norm_num) T.wide.uexp)
        refine lt_of_lt_of_le this ?_
        rw [← zpow_natCast, ← zpow_add₀ (by norm_num)]
        exact zpow_le_zpow_right₀ (by norm_num) (by omega)
      rw [hxz] at h3
      linarith
    obtain ⟨r, y1, y2, y3, y4⟩ := op_exact sem T c hc o a b x hx.symm host.wf w1 hn M.natAbs T.fmt.uexp
      (by
        have : ((M.natAbs : ℕ) : ℤ) < 2 ^ (T.fmt.mw + 1) := by rw [← Int.abs_eq_natAbs]; exact hMb
        exact_mod_cast this) le_rfl
      (by rw [hxz, habs, Nat.cast_natAbs, Int.cast_abs])
      (by
        rw [hxz]
        exact lt_trans hr1 (zpow_lt_zpow_right₀ (by norm_num) (by omega)))
    exact ⟨_, opDraws_ret sem T c o a b z r y1 y2 (by rw [y3]; exact w2) y4⟩

end Verif.Pass.Mean
