import Verif.Hash.Model
import Mathlib.Data.Nat.ModEq
import Mathlib.Data.Int.GCD
import Mathlib.Data.Finset.Card
import Mathlib.Data.Finset.Range
import Mathlib.Tactic.Ring

/-! # Probing -/

namespace Verif.Hash

/-- `j`-th index visited from `i`. -/
def probe (n i j : Nat) : Nat := (i + j * 5009) % 2 ^ n

theorem probe_lt (n i j : Nat) : probe n i j < 2 ^ n := Nat.mod_lt _ (Nat.two_pow_pos n)

theorem start_lt (n k : Nat) : start n k < 2 ^ n := Nat.mod_lt _ (Nat.two_pow_pos n)

theorem probe_zero (n i : Nat) (hi : i < 2 ^ n) : probe n i 0 = i := by
  unfold probe; simpa using Nat.mod_eq_of_lt hi

theorem probe_next (n i j : Nat) : probe n (nextIdx n i) j = probe n i (j + 1) := by
  unfold probe nextIdx
  rw [Nat.mod_add_mod]; congr 1; ring

theorem nextIdx_lt (n i : Nat) : nextIdx n i < 2 ^ n := Nat.mod_lt _ (Nat.two_pow_pos n)

theorem find_some (n : Nat) (stop : Nat → Bool) (fuel i r : Nat) (hi : i < 2 ^ n)
    (h : find n stop fuel i = some r) :
    ∃ j, j < fuel ∧ r = probe n i j ∧ stop r = true ∧ ∀ j', j' < j → stop (probe n i j') = false := by
  induction fuel generalizing i with
  | zero => simp [find] at h
  | succ fuel ih =>
    unfold find at h
    by_cases hs : stop i = true
    · simp [hs] at h
      subst h
      exact ⟨0, by omega, (probe_zero n i hi).symm, hs, by intro j' hj'; omega⟩
    · simp [hs] at h
      obtain ⟨j, hj, hr, hst, hb⟩ := ih (nextIdx n i) (nextIdx_lt n i) h
      refine ⟨j + 1, by omega, by rw [hr, probe_next], hst, ?_⟩
      intro j' hj'
      rcases j' with _ | j'
      · rw [probe_zero n i hi]; simpa using hs
      · rw [← probe_next]; exact hb j' (by omega)

theorem find_none_fuel (n : Nat) (stop : Nat → Bool) (fuel i : Nat) (hi : i < 2 ^ n)
    (h : find n stop fuel i = none) : ∀ j, j < fuel → stop (probe n i j) = false := by
  induction fuel generalizing i with
  | zero => intro j hj; omega
  | succ fuel ih =>
    unfold find at h
    by_cases hs : stop i = true
    · simp [hs] at h
    · simp [hs] at h
      intro j hj
      rcases j with _ | j
      · rw [probe_zero n i hi]; simpa using hs
      · rw [← probe_next]; exact ih _ (nextIdx_lt n i) h j (by omega)

/-- 5009 is odd: the probe visits every slot within `2^n` steps. -/
theorem probe_surj (n i r : Nat) (hr : r < 2 ^ n) : ∃ j, j < 2 ^ n ∧ probe n i j = r := by
  have hcop : Nat.Coprime 5009 (2 ^ n) := Nat.Coprime.pow_right n (by decide)
  obtain ⟨m, hm⟩ : ∃ m, 5009 * m % 2 ^ n = 1 % 2 ^ n := by
    rcases Nat.eq_zero_or_pos n with rfl | hn
    · exact ⟨0, by simp⟩
    · have h1 : 1 < 2 ^ n := Nat.one_lt_two_pow (by omega)
      obtain ⟨m, -, hm⟩ := Nat.exists_mul_mod_eq_one_of_coprime hcop h1
      exact ⟨m, by rw [hm, Nat.mod_eq_of_lt h1]⟩
  have hpos := Nat.two_pow_pos n
  -- target offset
  let d := r + (2 ^ n - i % 2 ^ n)
  refine ⟨d * m % 2 ^ n, Nat.mod_lt _ hpos, ?_⟩
  unfold probe
  have h1 : (d * m % 2 ^ n) * 5009 ≡ d [MOD 2 ^ n] := by
    have a1 : (d * m % 2 ^ n) * 5009 ≡ d * m * 5009 [MOD 2 ^ n] := (Nat.mod_modEq _ _).mul_right _
    have a2 : d * m * 5009 ≡ d * 1 [MOD 2 ^ n] := by
      have : 5009 * m ≡ 1 [MOD 2 ^ n] := hm
      calc d * m * 5009 = d * (5009 * m) := by ring
        _ ≡ d * 1 [MOD 2 ^ n] := this.mul_left d
    simpa using a1.trans a2
  have h2 : i + (d * m % 2 ^ n) * 5009 ≡ i + d [MOD 2 ^ n] := h1.add_left i
  have h3 : i + d ≡ r [MOD 2 ^ n] := by
    have hlt : i % 2 ^ n < 2 ^ n := Nat.mod_lt _ hpos
    have e : i + d = r + 2 ^ n * (i / 2 ^ n + 1) := by
      have := Nat.div_add_mod i (2 ^ n)
      simp only [d]
      rw [Nat.mul_add, Nat.mul_one]
      omega
    rw [e, Nat.ModEq, Nat.add_mul_mod_self_left]
  rw [h2.trans h3, Nat.mod_eq_of_lt hr]

/-- The search terminates when some slot satisfies the exit condition … -/
theorem search_isSome (n : Nat) (stop : Nat → Bool) (key r : Nat) (hr : r < 2 ^ n) (hs : stop r = true) :
    ∃ r', search n stop key = some r' := by
  unfold search
  rcases h : find n stop (2 ^ n) (start n key) with _ | r'
  · obtain ⟨j, hj, hjr⟩ := probe_surj n (start n key) r hr
    have := find_none_fuel n stop _ _ (start_lt n key) h j hj
    rw [hjr, hs] at this; cases this
  · exact ⟨r', rfl⟩

/-- … and otherwise the loop of the code runs forever: `none` is non-termination. -/
theorem search_none (n : Nat) (stop : Nat → Bool) (key : Nat) (h : search n stop key = none) (j : Nat) :
    stop (probe n (start n key) j) = false := by
  rcases hb : stop (probe n (start n key) j) with _ | _
  · rfl
  · obtain ⟨r', hr'⟩ := search_isSome n stop key _ (probe_lt n _ j) hb
    rw [h] at hr'; cases hr'

theorem search_some (n : Nat) (stop : Nat → Bool) (key r : Nat) (h : search n stop key = some r) :
    r < 2 ^ n ∧ stop r = true ∧ ∃ j, j < 2 ^ n ∧ r = probe n (start n key) j ∧
      ∀ j', j' < j → stop (probe n (start n key) j') = false := by
  obtain ⟨j, hj, hr, hs, hb⟩ := find_some n stop _ _ r (start_lt n key) h
  exact ⟨by rw [hr]; exact probe_lt _ _ _, hs, j, hj, hr, hb⟩

/-- The first slot on the path that satisfies the exit condition is the one found. -/
theorem search_eq (n : Nat) (stop : Nat → Bool) (key j : Nat)
    (hs : stop (probe n (start n key) j) = true)
    (hb : ∀ j', j' < j → stop (probe n (start n key) j') = false) :
    search n stop key = some (probe n (start n key) j) := by
  obtain ⟨r, hr⟩ := search_isSome n stop key _ (probe_lt n _ j) hs
  obtain ⟨-, hsr, i, -, hri, hbi⟩ := search_some n stop key r hr
  rw [hr, hri]
  rcases Nat.lt_trichotomy i j with h | h | h
  · rw [hri, hb i h] at hsr; cases hsr
  · rw [h]
  · rw [hbi j h] at hs; cases hs

/-- Exit conditions that agree on the table give the same search. -/
theorem search_congr (n : Nat) (s s' : Nat → Bool) (key : Nat) (h : ∀ i, i < 2 ^ n → s i = s' i) :
    search n s key = search n s' key := by
  unfold search
  have : ∀ fuel i, i < 2 ^ n → find n s fuel i = find n s' fuel i := by
    intro fuel
    induction fuel with
    | zero => intro i _; rfl
    | succ f ih => intro i hi; unfold find; rw [h i hi, ih _ (nextIdx_lt n i)]
  exact this _ _ (start_lt n key)

/-! ## Counting slots -/

/-- Number of slots below `c` satisfying `p`. -/
def cnt (p : Nat → Bool) (c : Nat) : Nat := ((List.range c).filter p).length

theorem cnt_succ (p : Nat → Bool) (c : Nat) : cnt p (c + 1) = cnt p c + (if p c then 1 else 0) := by
  unfold cnt
  rw [List.range_succ, List.filter_append, List.length_append]
  by_cases h : p c = true <;> simp [h]

theorem cnt_le (p : Nat → Bool) (c : Nat) : cnt p c ≤ c := by
  unfold cnt
  have := List.length_filter_le p (List.range c)
  simpa using this

theorem cnt_lt_exists (p : Nat → Bool) (c : Nat) (h : cnt p c < c) : ∃ i, i < c ∧ p i = false := by
  induction c with
  | zero => omega
  | succ c ih =>
    rw [cnt_succ] at h
    rcases hp : p c with _ | _
    · exact ⟨c, by omega, hp⟩
    · rw [hp] at h; simp at h
      obtain ⟨i, hi, hpi⟩ := ih h
      exact ⟨i, by omega, hpi⟩

theorem cnt_congr (p q : Nat → Bool) (c : Nat) (h : ∀ i, i < c → p i = q i) : cnt p c = cnt q c := by
  induction c with
  | zero => rfl
  | succ c ih => rw [cnt_succ, cnt_succ, ih (fun i hi => h i (by omega)), h c (by omega)]

theorem cnt_flip (p q : Nat → Bool) (c r : Nat) (hr : r < c) (hpr : p r = false) (hqr : q r = true)
    (h : ∀ i, i ≠ r → p i = q i) : cnt q c = cnt p c + 1 := by
  induction c with
  | zero => omega
  | succ c ih =>
    rw [cnt_succ, cnt_succ]
    by_cases hc : r = c
    · subst hc
      rw [hpr, hqr, cnt_congr p q r (fun i hi => h i (by omega))]; simp
    · rw [ih (by omega), h c (fun hh => hc hh.symm)]; omega

theorem cnt_false (c : Nat) (p : Nat → Bool) (h : ∀ i, i < c → p i = false) : cnt p c = 0 := by
  induction c with
  | zero => rfl
  | succ c ih => rw [cnt_succ, ih (fun i hi => h i (by omega)), h c (by omega)]; simp

end Verif.Hash
