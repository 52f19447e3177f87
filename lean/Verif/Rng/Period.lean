import Verif.Rng.Lemmas
import Mathlib.Data.BitVec
import Mathlib.NumberTheory.LucasPrimality
import Mathlib.Tactic.NormNum.Prime
import Mathlib.Data.Fintype.Prod

/-! # The period of the generator

The state update is linear over GF(2).  Polynomials over GF(2) are natural numbers (bit
`i` is the coefficient of `x^i`); `act p v` is `p(next)` applied to `v`. -/

namespace Verif.Rng

instance : Zero St := ⟨⟨0, 0⟩⟩
instance : Add St := ⟨fun a b => ⟨a.s0 ^^^ b.s0, a.s1 ^^^ b.s1⟩⟩

@[ext] theorem St.ext' {a b : St} (h0 : a.s0 = b.s0) (h1 : a.s1 = b.s1) : a = b := by
  cases a; cases b; simp_all

theorem add_s0 (a b : St) : (a + b).s0 = a.s0 ^^^ b.s0 := rfl
theorem add_s1 (a b : St) : (a + b).s1 = a.s1 ^^^ b.s1 := rfl
theorem zero_s0 : (0 : St).s0 = 0#64 := rfl
theorem zero_s1 : (0 : St).s1 = 0#64 := rfl

theorem st_add_assoc (a b c : St) : a + b + c = a + (b + c) := by
  ext1 <;> simp only [add_s0, add_s1, BitVec.xor_assoc]
theorem st_add_comm (a b : St) : a + b = b + a := by
  ext1 <;> simp only [add_s0, add_s1, BitVec.xor_comm]
theorem st_add_self (a : St) : a + a = 0 := by
  ext1 <;> simp [add_s0, add_s1, zero_s0, zero_s1]
theorem st_zero_add (a : St) : 0 + a = a := by
  ext1 <;> simp [add_s0, add_s1, zero_s0, zero_s1]
theorem st_add_zero (a : St) : a + 0 = a := by rw [st_add_comm, st_zero_add]

instance : Std.Associative (α := St) (· + ·) := ⟨st_add_assoc⟩
instance : Std.Commutative (α := St) (· + ·) := ⟨st_add_comm⟩

theorem rotl_xor (x y : U64) (k : Nat) (hk : k < 64) : rotl (x ^^^ y) k = rotl x k ^^^ rotl y k := by
  rw [rotl_eq _ _ hk, rotl_eq _ _ hk, rotl_eq _ _ hk]
  apply BitVec.eq_of_getLsbD_eq
  intro i hi
  simp only [BitVec.getLsbD_rotateLeft, BitVec.getLsbD_xor]
  rcases Bool.eq_false_or_eq_true (decide (i < k % 64)) with h | h <;> simp [h, hi]

theorem next_add (a b : St) : next (a + b) = next a + next b := by
  obtain ⟨a0, a1⟩ := a
  obtain ⟨b0, b1⟩ := b
  have hx : (a1 ^^^ b1) ^^^ (a0 ^^^ b0) = (a1 ^^^ a0) ^^^ (b1 ^^^ b0) := by ac_rfl
  have e0 : rotl (a0 ^^^ b0) 49 ^^^ ((a1 ^^^ b1) ^^^ (a0 ^^^ b0)) ^^^ (((a1 ^^^ b1) ^^^ (a0 ^^^ b0)) <<< 21)
      = (rotl a0 49 ^^^ (a1 ^^^ a0) ^^^ ((a1 ^^^ a0) <<< 21))
        ^^^ (rotl b0 49 ^^^ (b1 ^^^ b0) ^^^ ((b1 ^^^ b0) <<< 21)) := by
    rw [hx, rotl_xor _ _ 49 (by decide), BitVec.shiftLeft_xor_distrib]
    generalize rotl a0 49 = p; generalize rotl b0 49 = q
    generalize a1 ^^^ a0 = r; generalize b1 ^^^ b0 = t
    generalize r <<< 21 = r'; generalize t <<< 21 = t'
    ac_rfl
  have e1 : rotl ((a1 ^^^ b1) ^^^ (a0 ^^^ b0)) 28 = rotl (a1 ^^^ a0) 28 ^^^ rotl (b1 ^^^ b0) 28 := by
    rw [hx, rotl_xor _ _ 28 (by decide)]
  exact congrArg₂ St.mk e0 e1

theorem next_zero : next 0 = 0 := by decide +kernel

/-- `p(next) v`, Horner from the low bit; `n` bits of `p` are used. -/
def act : Nat → Nat → St → St
  | 0, _, _ => 0
  | n + 1, p, v => (if p % 2 = 1 then v else 0) + next (act n (p / 2) v)

theorem act_zero_poly (n : Nat) (v : St) : act n 0 v = 0 := by
  induction n with
  | zero => rfl
  | succ n ih => simp only [act, Nat.zero_div, ih, next_zero]; exact st_zero_add 0

theorem act_next (n p : Nat) (v : St) : act n p (next v) = next (act n p v) := by
  induction n generalizing p with
  | zero => simp [act, next_zero]
  | succ n ih =>
    simp only [act, ih, next_add]
    split <;> simp [next_zero]

theorem act_vadd (n p : Nat) (v w : St) : act n p (v + w) = act n p v + act n p w := by
  induction n generalizing p with
  | zero => exact (st_zero_add 0).symm
  | succ n ih =>
    simp only [act, ih, next_add]
    split
    · ac_rfl
    · simp only [st_zero_add]

theorem act_vzero (n p : Nat) : act n p 0 = 0 := by
  induction n generalizing p with
  | zero => rfl
  | succ n ih => simp only [act, ih, next_zero]; split <;> rfl

theorem act_comm (n p m q : Nat) (v : St) : act n p (act m q v) = act m q (act n p v) := by
  induction m generalizing q with
  | zero => simp [act, act_vzero]
  | succ m ih =>
    simp only [act, act_vadd, act_next, ih]
    split
    · rfl
    · rw [act_vzero]

theorem act_xor (n p q : Nat) (v : St) : act n (p ^^^ q) v = act n p v + act n q v := by
  induction n generalizing p q with
  | zero => exact (st_zero_add 0).symm
  | succ n ih =>
    have hd : (p ^^^ q) / 2 = (p / 2) ^^^ (q / 2) := by
      have := Nat.shiftRight_xor_distrib (a := p) (b := q) (i := 1)
      simpa [Nat.shiftRight_succ] using this
    have hm : (p ^^^ q) % 2 = (p + q) % 2 := by
      have := Nat.xor_mod_two_pow (a := p) (b := q) (n := 1)
      simp only [pow_one] at this
      rw [this, Nat.add_mod]
      rcases Nat.mod_two_eq_zero_or_one p with h | h <;> rcases Nat.mod_two_eq_zero_or_one q with h' | h' <;>
        simp [h, h']
    simp only [act, hd, ih, next_add, hm]
    rcases Nat.mod_two_eq_zero_or_one p with h | h <;> rcases Nat.mod_two_eq_zero_or_one q with h' | h'
    · simp [Nat.add_mod, h, h', st_zero_add]
    · simp [Nat.add_mod, h, h', st_zero_add]; ac_rfl
    · simp [Nat.add_mod, h, h', st_zero_add]; ac_rfl
    · have : v + next (act n (p/2) v) + (v + next (act n (q/2) v))
          = (v + v) + (next (act n (p/2) v) + next (act n (q/2) v)) := by ac_rfl
      simp [Nat.add_mod, h, h', this, st_add_self]

/-- Enough bits: extra ones change nothing. -/
theorem act_fuel (n m p : Nat) (v : St) (hp : p < 2 ^ n) (hm : n ≤ m) : act m p v = act n p v := by
  induction n generalizing p m with
  | zero =>
    have : p = 0 := by simpa using hp
    subst this; rw [act_zero_poly, act_zero_poly]
  | succ n ih =>
    obtain ⟨m, rfl⟩ : ∃ k, m = k + 1 := ⟨m - 1, by omega⟩
    simp only [act]
    rw [ih m (p / 2) (by rw [pow_succ] at hp; omega) (by omega)]

theorem act_double (p : Nat) (v : St) (hp : p < 2 ^ 128) : act 129 (2 * p) v = next (act 129 p v) := by
  rw [act_fuel 128 129 p v hp (by decide)]
  show (if 2 * p % 2 = 1 then v else 0) + next (act 128 (2 * p / 2) v) = _
  rw [if_neg (by omega), Nat.mul_div_cancel_left _ (by decide), st_zero_add]

/-- The characteristic polynomial. -/
def P : Nat := 0x10031bcf2f855d6e58dae70779760b081

def v0 : St := ⟨1, 0⟩

theorem act_P : act 129 P v0 = 0 := by decide +kernel

def red (x : Nat) : Nat := if 2 ^ 128 ≤ x then x ^^^ P else x

theorem xor_lt_128 (x : Nat) (h1 : 2 ^ 128 ≤ x) (h2 : x < 2 ^ 129) : x ^^^ P < 2 ^ 128 := by
  apply Nat.lt_pow_two_of_testBit
  intro i hi
  rcases Nat.eq_or_lt_of_le hi with h | h
  · subst h
    rw [Nat.testBit_xor]
    have hx : x.testBit 128 = true := by
      rw [Nat.testBit_eq_decide_div_mod_eq]
      have : x / 2 ^ 128 = 1 := by omega
      rw [this]; rfl
    have hP : P.testBit 128 = true := by decide +kernel
    rw [hx, hP]; rfl
  · have hx2 : x < 2 ^ i := lt_of_lt_of_le h2 (Nat.pow_le_pow_right (by decide) h)
    have hP2 : P < 2 ^ i := lt_of_lt_of_le (by decide +kernel : P < 2 ^ 129) (Nat.pow_le_pow_right (by decide) h)
    rw [Nat.testBit_xor, Nat.testBit_lt_two_pow hx2, Nat.testBit_lt_two_pow hP2]; rfl

theorem red_lt (x : Nat) (h : x < 2 ^ 129) : red x < 2 ^ 128 := by
  unfold red
  split
  · exact xor_lt_128 x (by assumption) h
  · omega

theorem red_act (x : Nat) : act 129 (red x) v0 = act 129 x v0 := by
  unfold red
  split
  · rw [act_xor, act_P, st_add_zero]
  · rfl

/-- Product of polynomials modulo `P`. -/
def mulMod : Nat → Nat → Nat → Nat
  | 0, _, _ => 0
  | n + 1, q, p => (if q % 2 = 1 then p else 0) ^^^ red (2 * mulMod n (q / 2) p)

theorem mulMod_lt (n q p : Nat) (hp : p < 2 ^ 128) : mulMod n q p < 2 ^ 128 := by
  induction n generalizing q with
  | zero => exact Nat.two_pow_pos 128
  | succ n ih =>
    rw [mulMod]
    apply Nat.xor_lt_two_pow
    · split
      · exact hp
      · decide
    · apply red_lt
      have := ih (q / 2)
      omega

theorem mulMod_act (n q p : Nat) (hp : p < 2 ^ 128) : act 129 (mulMod n q p) v0 = act n q (act 129 p v0) := by
  induction n generalizing q with
  | zero => rw [mulMod, act_zero_poly]; rfl
  | succ n ih =>
    rw [mulMod]
    show _ = (if q % 2 = 1 then act 129 p v0 else 0) + next (act n (q / 2) (act 129 p v0))
    rw [act_xor, red_act, act_double _ _ (mulMod_lt n _ p hp), ih]
    congr 1
    split
    · rfl
    · rw [act_zero_poly]

/-- `x^k` modulo `P`, by squaring. -/
def xPow : Nat → Nat → Nat
  | 0, _ => 1
  | n + 1, k =>
    let h := xPow n (k / 2)
    let s := mulMod 128 h h
    if k % 2 = 1 then red (2 * s) else s

theorem xPow_lt (n k : Nat) : xPow n k < 2 ^ 128 := by
  induction n generalizing k with
  | zero => rw [xPow]; decide
  | succ n ih =>
    have hs := mulMod_lt 128 (xPow n (k / 2)) _ (ih (k / 2))
    simp only [xPow]
    split
    · apply red_lt; omega
    · exact hs

theorem act_one (v : St) : act 129 1 v = v := by
  have : act 129 1 v = v + next (act 128 0 v) := rfl
  rw [this, act_zero_poly, next_zero, st_add_zero]

theorem iterate_act (n p k : Nat) (v : St) : next^[k] (act n p v) = act n p (next^[k] v) := by
  induction k generalizing v with
  | zero => rfl
  | succ k ih => rw [Function.iterate_succ_apply, Function.iterate_succ_apply, ← act_next, ih]

theorem xPow_spec (n k : Nat) (hk : k < 2 ^ n) : next^[k] v0 = act 129 (xPow n k) v0 := by
  induction n generalizing k with
  | zero =>
    have : k = 0 := by simpa using hk
    subst this; exact (act_one v0).symm
  | succ n ih =>
    have h := ih (k / 2) (by rw [pow_succ] at hk; omega)
    have hlt := xPow_lt n (k / 2)
    have hsq : next^[k / 2 + k / 2] v0 = act 129 (mulMod 128 (xPow n (k / 2)) (xPow n (k / 2))) v0 := by
      rw [mulMod_act _ _ _ hlt, Function.iterate_add_apply, h, iterate_act, h,
        act_fuel 128 129 _ _ hlt (by decide), act_fuel 128 129 _ _ hlt (by decide)]
    simp only [xPow]
    split
    · rw [red_act, act_double _ _ (mulMod_lt _ _ _ hlt), ← hsq, ← Function.iterate_succ_apply' next]
      congr 1; omega
    · rw [← hsq]; congr 1; omega

/-- The period claimed for xoroshiro128++. -/
def N : Nat := 2 ^ 128 - 1

theorem iterate_N : next^[N] v0 = v0 := by
  rw [xPow_spec 128 N (by decide +kernel)]
  have : xPow 128 N = 1 := by decide +kernel
  rw [this, act_one]

theorem not_periodic (k : Nat) (hk : k < 2 ^ 128) (h : act 129 (xPow 128 k) v0 ≠ v0) :
    ¬ Function.IsPeriodicPt next k v0 := by
  intro hp
  rw [Function.IsPeriodicPt, Function.IsFixedPt, xPow_spec 128 k hk] at hp
  exact h hp

theorem N_factors : N = 3 * (5 * (17 * (257 * (641 * (65537 * (274177 * (6700417 * 67280421310721))))))) := by
  decide +kernel

/-- `a^k` modulo `m`, by squaring. -/
def powMod (m a : Nat) : Nat → Nat → Nat
  | 0, _ => 1
  | n + 1, k =>
    let h := powMod m a n (k / 2)
    if k % 2 = 1 then h * h * a % m else h * h % m

theorem powMod_spec (m a n k : Nat) (hk : k < 2 ^ n) : powMod m a n k % m = a ^ k % m := by
  induction n generalizing k with
  | zero =>
    have : k = 0 := by simpa using hk
    subst this; rfl
  | succ n ih =>
    have h := ih (k / 2) (by rw [pow_succ] at hk; omega)
    rw [powMod]
    split
    · have : a ^ k = a ^ (k / 2) * a ^ (k / 2) * a := by
        rw [← pow_add, ← pow_succ]; congr 1; omega
      rw [Nat.mod_mod, this]
      exact Nat.ModEq.mul_right a (Nat.ModEq.mul h h)
    · have : a ^ k = a ^ (k / 2) * a ^ (k / 2) := by
        rw [← pow_add]; congr 1; omega
      rw [Nat.mod_mod, this, Nat.mul_mod, h, ← Nat.mul_mod]

theorem prime_big : Nat.Prime 67280421310721 := by
  apply lucas_primality 67280421310721 (3 : ZMod 67280421310721)
  · have h : 3 ^ (67280421310721 - 1) % 67280421310721 = 1 := by
      rw [← powMod_spec _ _ 64 _ (by decide +kernel)]; decide +kernel
    have := (ZMod.natCast_eq_natCast_iff (3 ^ (67280421310721 - 1)) 1 67280421310721).2 (by
      rw [Nat.ModEq, h])
    push_cast at this
    exact_mod_cast this
  · intro q hq hd
    have hf : 67280421310721 - 1 = 2 ^ 8 * (5 * (47 * (373 * 2998279))) := by norm_num
    rw [hf] at hd
    have key : ∀ k, 3 ^ k % 67280421310721 ≠ 1 → (3 : ZMod 67280421310721) ^ k ≠ 1 := by
      intro k hk h
      apply hk
      have h' : ((3 ^ k : ℕ) : ZMod 67280421310721) = ((1 : ℕ) : ZMod 67280421310721) := by
        push_cast; exact h
      have := (ZMod.natCast_eq_natCast_iff _ _ _).1 h'
      rw [Nat.ModEq] at this
      rw [this]
    have p5 : Nat.Prime 5 := by norm_num
    have p47 : Nat.Prime 47 := by norm_num
    have p373 : Nat.Prime 373 := by norm_num
    have pb : Nat.Prime 2998279 := by norm_num
    apply key
    rcases (Nat.Prime.dvd_mul hq).1 hd with h | h
    · have := (Nat.prime_dvd_prime_iff_eq hq Nat.prime_two).1 (hq.dvd_of_dvd_pow h)
      subst this
      rw [← powMod_spec _ _ 64 _ (by decide +kernel)]; decide +kernel
    rcases (Nat.Prime.dvd_mul hq).1 h with h | h
    · have := (Nat.prime_dvd_prime_iff_eq hq p5).1 h
      subst this
      rw [← powMod_spec _ _ 64 _ (by decide +kernel)]; decide +kernel
    rcases (Nat.Prime.dvd_mul hq).1 h with h | h
    · have := (Nat.prime_dvd_prime_iff_eq hq p47).1 h
      subst this
      rw [← powMod_spec _ _ 64 _ (by decide +kernel)]; decide +kernel
    rcases (Nat.Prime.dvd_mul hq).1 h with h | h
    · have := (Nat.prime_dvd_prime_iff_eq hq p373).1 h
      subst this
      rw [← powMod_spec _ _ 64 _ (by decide +kernel)]; decide +kernel
    · have := (Nat.prime_dvd_prime_iff_eq hq pb).1 h
      subst this
      rw [← powMod_spec _ _ 64 _ (by decide +kernel)]; decide +kernel

theorem prime_divisor (q : Nat) (hq : q.Prime) (hd : q ∣ N) :
    q = 3 ∨ q = 5 ∨ q = 17 ∨ q = 257 ∨ q = 641 ∨ q = 65537 ∨ q = 274177 ∨ q = 6700417 ∨ q = 67280421310721 := by
  rw [N_factors] at hd
  have p3 : Nat.Prime 3 := by norm_num
  have p5 : Nat.Prime 5 := by norm_num
  have p17 : Nat.Prime 17 := by norm_num
  have p257 : Nat.Prime 257 := by norm_num
  have p641 : Nat.Prime 641 := by norm_num
  have p65537 : Nat.Prime 65537 := by norm_num
  have p274177 : Nat.Prime 274177 := by norm_num
  have p6700417 : Nat.Prime 6700417 := by norm_num
  have aux : ∀ p r, Nat.Prime p → q ∣ p * r → q = p ∨ q ∣ r := by
    intro p r hp h
    rcases (Nat.Prime.dvd_mul hq).1 h with h | h
    · exact Or.inl ((Nat.prime_dvd_prime_iff_eq hq hp).1 h)
    · exact Or.inr h
  rcases aux _ _ p3 hd with h | hd
  · simp [h]
  rcases aux _ _ p5 hd with h | hd
  · simp [h]
  rcases aux _ _ p17 hd with h | hd
  · simp [h]
  rcases aux _ _ p257 hd with h | hd
  · simp [h]
  rcases aux _ _ p641 hd with h | hd
  · simp [h]
  rcases aux _ _ p65537 hd with h | hd
  · simp [h]
  rcases aux _ _ p274177 hd with h | hd
  · simp [h]
  rcases aux _ _ p6700417 hd with h | hd
  · simp [h]
  · have := (Nat.prime_dvd_prime_iff_eq hq prime_big).1 hd
    simp [this]

theorem not_periodic_div (q : Nat) (hq : q.Prime) (hd : q ∣ N) : ¬ Function.IsPeriodicPt next (N / q) v0 := by
  rcases prime_divisor q hq hd with h | h | h | h | h | h | h | h | h <;> subst h <;>
    exact not_periodic _ (by decide +kernel) (by decide +kernel)

/-- The orbit of `v0` has length `2^128 - 1`. -/
theorem minimalPeriod_v0 : Function.minimalPeriod next v0 = N := by
  have hper : Function.IsPeriodicPt next N v0 := iterate_N
  have hdvd := hper.minimalPeriod_dvd
  obtain ⟨c, hc⟩ := hdvd
  by_cases h1 : c = 1
  · rw [hc, h1, mul_one]
  · exfalso
    obtain ⟨q, hq, hqc⟩ := Nat.exists_prime_and_dvd h1
    have hqN : q ∣ N := hqc.trans ⟨_, by rw [hc, mul_comm]⟩
    apply not_periodic_div q hq hqN
    obtain ⟨d, hd⟩ := hqc
    have : N / q = Function.minimalPeriod next v0 * d := by
      apply Nat.div_eq_of_eq_mul_right hq.pos
      rw [← Nat.mul_assoc, Nat.mul_comm q, Nat.mul_assoc, ← hd]; exact hc
    rw [this]
    exact (Function.isPeriodicPt_minimalPeriod next v0).mul_const d

def stEquiv : St ≃ Fin (2 ^ 64) × Fin (2 ^ 64) where
  toFun s := (s.s0.toFin, s.s1.toFin)
  invFun p := ⟨⟨p.1⟩, ⟨p.2⟩⟩
  left_inv _ := rfl
  right_inv _ := rfl

instance : Fintype St := Fintype.ofEquiv _ stEquiv.symm

theorem card_st : Fintype.card St = 2 ^ 128 := by
  rw [Fintype.card_congr stEquiv, Fintype.card_prod, Fintype.card_fin]; decide +kernel

theorem iterate_ne_zero (k : Nat) (s : St) (h : s ≠ 0) : next^[k] s ≠ 0 := by
  induction k generalizing s with
  | zero => exact h
  | succ k ih =>
    rw [Function.iterate_succ_apply]
    apply ih
    intro h0
    exact h (next_injective (h0.trans next_zero.symm))

/-- Every nonzero state is on the orbit of `v0`. -/
theorem orbit_all (s : St) (hs : s ≠ 0) : ∃ k, k < N ∧ next^[k] v0 = s := by
  have hv0 : v0 ≠ 0 := by decide +kernel
  let f : Fin N → {s : St // s ≠ 0} := fun k => ⟨next^[k.1] v0, iterate_ne_zero _ _ hv0⟩
  have hinj : Function.Injective f := by
    intro a b h
    have h' : next^[a.1] v0 = next^[b.1] v0 := congrArg Subtype.val h
    apply Fin.ext
    exact Function.iterate_injOn_Iio_minimalPeriod (by rw [minimalPeriod_v0]; exact a.2)
      (by rw [minimalPeriod_v0]; exact b.2) h'
  have hcard : Fintype.card (Fin N) = Fintype.card {s : St // s ≠ 0} := by
    rw [Fintype.card_fin, Fintype.card_subtype_compl (fun s : St => s = 0), card_st,
      Fintype.card_subtype_eq]
    rfl
  have hbij := (Fintype.bijective_iff_injective_and_card f).2 ⟨hinj, hcard⟩
  obtain ⟨k, hk⟩ := hbij.2 ⟨s, hs⟩
  exact ⟨k.1, k.2, congrArg Subtype.val hk⟩

/-- From any nonzero state the generator reaches any nonzero state. -/
theorem reach (s s' : St) (hs : s ≠ 0) (hs' : s' ≠ 0) : ∃ k, k < N ∧ next^[k] s = s' := by
  obtain ⟨a, ha, rfl⟩ := orbit_all s hs
  obtain ⟨b, hb, rfl⟩ := orbit_all s' hs'
  by_cases h : a ≤ b
  · exact ⟨b - a, by omega, by rw [← Function.iterate_add_apply]; congr 1; omega⟩
  · refine ⟨N - a + b, by omega, ?_⟩
    rw [← Function.iterate_add_apply]
    have : N - a + b + a = b + N := by omega
    rw [this, Function.iterate_add_apply, iterate_N]

theorem minimalPeriod_all (s : St) (hs : s ≠ 0) : Function.minimalPeriod next s = N := by
  obtain ⟨a, -, rfl⟩ := orbit_all s hs
  rw [Function.minimalPeriod_apply_iterate, minimalPeriod_v0]
  exact ⟨N, by decide +kernel, iterate_N⟩

end Verif.Rng
