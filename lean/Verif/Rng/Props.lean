import Verif.Rng.Period
import Verif.Float.Add
import Mathlib.Data.List.Basic

/-! # Random numbers: C15, C16, C17, C18, C51 -/

namespace Verif.Rng
open Verif Verif.Fp

/-! ## Specification: what a seeded run draws -/

/-- The state of the generator of a thread whose effective seed is `σ`, after `k`
draws. -/
def stream (σ : U64) (k : Nat) : St := next^[k] ⟨nextSeed σ, nextSeed σ⟩

/-- The threads of a schedule in the order in which they first take a step. -/
def arrival (sched : List Nat) : List Nat :=
  sched.foldl (fun acc t => if t ∈ acc then acc else acc ++ [t]) []

/-- 1 for the first thread to draw, 2 for the second, … -/
def rank (sched : List Nat) (t : Nat) : Nat := (arrival sched).idxOf t + 1

/-- The seed given on the command line mixed with the rank (a 32-bit signed counter). -/
def mix (seed : U64) (r : Nat) : U64 := seed ^^^ (BitVec.ofNat 32 r).signExtend 64

/-- State of a thread of rank `r` after `n` of its own steps. -/
def expect (seed : U64) (r : Nat) : Nat → Thread
  | 0 => ⟨Pc.idle, RngState.fresh, []⟩
  | 1 => ⟨Pc.seeding (BitVec.ofNat 32 r), ⟨true, seed, false, ⟨0, 0⟩⟩, []⟩
  | n + 2 => ⟨Pc.idle, ⟨true, mix seed r, true, stream (mix seed r) n⟩,
      (List.range n).map fun k => output (stream (mix seed r) k)⟩

theorem arrival_snoc (l : List Nat) (t : Nat) :
    arrival (l ++ [t]) = if t ∈ arrival l then arrival l else arrival l ++ [t] := by
  unfold arrival; rw [List.foldl_append]; rfl

theorem mem_arrival (l : List Nat) (t : Nat) : t ∈ arrival l ↔ t ∈ l := by
  induction l using List.reverseRecOn with
  | nil => simp [arrival]
  | append_singleton l u ih =>
    rw [arrival_snoc]
    split
    · rw [List.mem_append, ih, List.mem_singleton]
      constructor
      · exact Or.inl
      · rintro (h | h)
        · exact h
        · subst h; exact ih.1 (by assumption)
    · rw [List.mem_append, List.mem_append, ih]

theorem run_snoc (seed : U64) (l : List Nat) (t : Nat) :
    Sys.run seed (l ++ [t]) = (Sys.run seed l).step seed t := by
  unfold Sys.run; rw [List.foldl_append]; rfl

theorem rank_snoc (l : List Nat) (t u : Nat) (h : t ∈ l) : rank (l ++ [u]) t = rank l t := by
  unfold rank
  rw [arrival_snoc]
  split
  · rfl
  · rw [List.idxOf_append_of_mem ((mem_arrival l t).2 h)]

theorem rank_new (l : List Nat) (t : Nat) (h : t ∉ l) :
    rank (l ++ [t]) t = (arrival l).length + 1 := by
  unfold rank
  have h' : t ∉ arrival l := fun hh => h ((mem_arrival l t).1 hh)
  rw [arrival_snoc, if_neg h', List.idxOf_append_of_notMem h']
  simp

theorem step_expect (seed : U64) (s : Sys) (t r n : Nat) (h : s.th t = expect seed r n)
    (hr : n = 0 → s.tid + 1 = BitVec.ofNat 32 r) :
    (s.step seed t).th t = expect seed r (n + 1) ∧
    (s.step seed t).tid = (if n = 0 then s.tid + 1 else s.tid) ∧
    ∀ u, u ≠ t → (s.step seed t).th u = s.th u := by
  rcases n with _ | _ | n
  · simp [Sys.step, h, expect, initStruct, RngState.fresh, Sys.set]
    refine ⟨by simpa using hr rfl, ?_⟩
    intro u hu; rw [Function.update_of_ne hu]
  · simp [Sys.step, h, expect, initRandom, setSeed, Sys.set, mix, stream]
    intro u hu; rw [Function.update_of_ne hu]
  · simp [Sys.step, h, expect, initStruct, Sys.set, List.range_succ, stream,
      Function.iterate_succ_apply']
    intro u hu; rw [Function.update_of_ne hu]

theorem run_expect (seed : U64) (sched : List Nat) :
    (Sys.run seed sched).tid = BitVec.ofNat 32 (arrival sched).length ∧
    ∀ t, (Sys.run seed sched).th t = expect seed (rank sched t) (sched.count t) := by
  induction sched using List.reverseRecOn with
  | nil => exact ⟨rfl, fun t => rfl⟩
  | append_singleton l u ih =>
    obtain ⟨hid, hth⟩ := ih
    rw [run_snoc]
    -- the thread that steps
    have hcount0 : l.count u = 0 ↔ u ∉ l := List.count_eq_zero
    have hexp : (Sys.run seed l).th u = expect seed (rank (l ++ [u]) u) (l.count u) := by
      rw [hth u]
      by_cases hu : u ∈ l
      · rw [rank_snoc l u u hu]
      · rw [hcount0.2 hu]; rfl
    obtain ⟨h1, h2, h3⟩ := step_expect seed _ u (rank (l ++ [u]) u) (l.count u) hexp (by
      intro h0
      rw [rank_new l u (hcount0.1 h0), hid, BitVec.ofNat_add]; rfl)
    refine ⟨?_, fun t => ?_⟩
    · rw [h2, arrival_snoc]
      by_cases hu : u ∈ l
      · rw [if_neg (fun h => hcount0.1 h hu), if_pos ((mem_arrival l u).2 hu), hid]
      · rw [if_pos (hcount0.2 hu), if_neg (fun h => hu ((mem_arrival l u).1 h)), hid,
          List.length_append, BitVec.ofNat_add]; rfl
    · by_cases htu : t = u
      · subst htu
        rw [h1]; simp
      · rw [h3 t htu, hth t]
        have hc : (l ++ [u]).count t = l.count t := by
          simp [List.count_singleton]; exact fun h => htu h.symm
        rw [hc]
        by_cases ht : t ∈ l
        · rw [rank_snoc l t u ht]
        · rw [List.count_eq_zero.2 ht]; rfl

/-! ## C15 -/

/-- **C15.**  With a seed, for every interleaving of the steps of any number of threads,
the numbers thread `t` has drawn are the first terms of the stream determined by the seed
and by the rank of `t` in order of arrival: a thread's `n`-th own step after its two
initialisation steps draws term `n`.  Nothing else of the schedule matters. -/
theorem C15_reproducible (seed : U64) (sched : List Nat) (t : Nat) :
    ((Sys.run seed sched).th t).out
      = (List.range (sched.count t - 2)).map
          (fun k => output (stream (mix seed (rank sched t)) k)) := by
  rw [(run_expect seed sched).2 t]
  rcases sched.count t with _ | _ | n <;> rfl

/-- **C15.**  Two executions in which the threads make their first draw in the same order
and `t` takes as many steps give `t` the same numbers. -/
theorem C15_two_schedules (seed : U64) (l₁ l₂ : List Nat) (t : Nat)
    (ha : arrival l₁ = arrival l₂) (hc : l₁.count t = l₂.count t) :
    ((Sys.run seed l₁).th t).out = ((Sys.run seed l₂).th t).out := by
  rw [C15_reproducible, C15_reproducible, hc]; unfold rank; rw [ha]

/-- A single-threaded run depends on the seed only. -/
theorem C15_sequential (seed : U64) (n t : Nat) :
    ((Sys.run seed (List.replicate (n + 2) t)).th t).out
      = (List.range n).map (fun k => output (stream (mix seed 1) k)) := by
  have hr : rank (List.replicate (n + 2) t) t = 1 := by
    have : ∀ m, arrival (List.replicate (m + 1) t) = [t] := by
      intro m
      induction m with
      | zero => simp [arrival]
      | succ m ih => rw [List.replicate_succ', arrival_snoc, ih]; simp
    unfold rank; rw [this (n + 1)]; simp
  rw [C15_reproducible, hr]; simp

/-- The hypothesis on the order of arrival is needed: swapping the first steps of two
threads swaps their streams. -/
theorem C15_order_matters :
    ((Sys.run 42 [0, 1, 0, 0, 1, 1]).th 0).out = ((Sys.run 42 [1, 0, 0, 0, 1, 1]).th 1).out ∧
    ((Sys.run 42 [0, 1, 0, 0, 1, 1]).th 0).out ≠ ((Sys.run 42 [1, 0, 0, 0, 1, 1]).th 0).out := by
  decide +kernel

example : arrival [0, 1, 0, 0, 1, 1] = arrival [0, 0, 0, 1, 1, 1] ∧
    [0, 1, 0, 0, 1, 1].count 1 = [0, 0, 0, 1, 1, 1].count 1 ∧
    ((Sys.run 42 [0, 1, 0, 0, 1, 1]).th 1).out.length = 1 := by decide +kernel

/-! ## C16 -/

theorem signExtend_inj (a b : BitVec 32) (h : a.signExtend 64 = b.signExtend 64) : a = b := by
  apply BitVec.eq_of_toInt_eq
  have := congrArg BitVec.toInt h
  rwa [BitVec.toInt_signExtend_of_le (by decide), BitVec.toInt_signExtend_of_le (by decide)] at this

theorem mix_inj (seed : U64) (r r' : Nat) (hr : r < 2 ^ 32) (hr' : r' < 2 ^ 32)
    (h : mix seed r = mix seed r') : r = r' := by
  unfold mix at h
  have h1 := signExtend_inj _ _ ((BitVec.xor_right_inj _).1 h)
  have := congrArg BitVec.toNat h1
  simp only [BitVec.toNat_ofNat] at this
  rwa [Nat.mod_eq_of_lt hr, Nat.mod_eq_of_lt hr'] at this

theorem rank_inj (sched : List Nat) (t u : Nat) (ht : t ∈ sched) (h : rank sched t = rank sched u) :
    t = u := by
  unfold rank at h
  have h' : (arrival sched).idxOf t = (arrival sched).idxOf u := by omega
  exact (List.idxOf_inj ((mem_arrival sched t).2 ht)).1 h'

/-- **C16.**  Two different threads that both draw use different seeds and, after any equal
number of draws, their generators are in different states (as long as fewer than `2^32`
threads have drawn). -/
theorem C16_distinct_streams (seed : U64) (sched : List Nat) (t u k : Nat) (htu : t ≠ u)
    (ht : t ∈ sched) (hlen : (arrival sched).length < 2 ^ 32) (hu : u ∈ sched) :
    mix seed (rank sched t) ≠ mix seed (rank sched u) ∧
    stream (mix seed (rank sched t)) k ≠ stream (mix seed (rank sched u)) k := by
  have hlt : ∀ v, v ∈ sched → rank sched v < 2 ^ 32 := by
    intro v hv
    have := List.idxOf_lt_length_of_mem ((mem_arrival sched v).2 hv)
    unfold rank; omega
  have h1 : mix seed (rank sched t) ≠ mix seed (rank sched u) := fun h =>
    htu (rank_inj sched t u ht (mix_inj seed _ _ (hlt t ht) (hlt u hu) h))
  refine ⟨h1, fun h => h1 ?_⟩
  have h2 := (next_injective.iterate k) h
  simp only [St.mk.injEq, and_self] at h2
  exact nextSeed_injective h2

example : 0 ∈ [0, 1] ∧ 1 ∈ [0, 1] ∧ (arrival [0, 1]).length < 2 ^ 32 := by decide

/-! ## C17 -/

theorem toDouble_pat (x : U64) :
    (0x3FF#64 <<< 52 ||| x >>> 12).toNat = 1023 * 2 ^ 52 + x.toNat / 2 ^ 12 := by
  have hx : x.toNat / 2 ^ 12 < 2 ^ 52 := by have := x.isLt; omega
  have h1 : (0x3FF#64 <<< 52).toNat = 1023 * 2 ^ 52 := by decide +kernel
  rw [BitVec.toNat_or, h1, BitVec.toNat_ushiftRight, Nat.shiftRight_eq_div_pow,
    ← Nat.shiftLeft_eq, Nat.shiftLeft_add_eq_or_of_lt hx]

theorem toDouble_spec (x : U64) :
    (toDouble x).WF b64 ∧ (toDouble x).Fin b64 ∧ (toDouble x).val b64 = (x.toNat / 2 ^ 12 : ℕ) / 2 ^ 52 := by
  have hx : x.toNat / 2 ^ 12 < 2 ^ 52 := by have := x.isLt; omega
  unfold toDouble
  rw [toDouble_pat]
  generalize x.toNat / 2 ^ 12 = k at hx ⊢
  have h1 : ¬ (2 ^ 63 ≤ 1023 * 2 ^ 52 + k) := by omega
  have h2 : (1023 * 2 ^ 52 + k) % 2 ^ 63 = 1023 * 2 ^ 52 + k := Nat.mod_eq_of_lt (by omega)
  have h3 : ofPat b64 false (1023 * 2 ^ 52 + k) = ⟨false, 1023, k⟩ := by
    unfold ofPat b64; simp only [Bits.mk.injEq, true_and]; omega
  simp only [h1, h2, decide_false, h3]
  obtain ⟨c, hc⟩ : ∃ c : ℕ, c = 1022 := ⟨_, rfl⟩
  have ea : Bits.imag b64 ⟨false, 1023, k⟩ = (2 ^ 52 + k) * 2 ^ c := by
    unfold Bits.imag Bits.mag Bits.sig b64; rw [hc]; push_cast; rfl
  have eb : Bits.imag b64 ⟨true, 1023, 0⟩ = -(2 ^ 52 * 2 ^ c) := by
    unfold Bits.imag Bits.mag Bits.sig b64; rw [hc]; push_cast; rfl
  have hsum : Bits.imag b64 ⟨false, 1023, k⟩ + Bits.imag b64 ⟨true, 1023, 0⟩ = k * 2 ^ c := by
    rw [ea, eb]; ring
  have he : b64.expInf - 2 = 2045 := by decide
  have hew : b64.mw + 1 = 53 := by decide
  obtain ⟨w1, w2, w3⟩ := fadd_exact b64 (by decide) ⟨false, 1023, k⟩ ⟨true, 1023, 0⟩
    (fun h => absurd h (by show ¬ (1023 = b64.expInf); decide)) (by unfold Bits.Fin; decide) k c
    (by rw [hsum]; rw [Int.natAbs_mul, Int.natAbs_pow]; rfl)
    (by rw [hew]; omega)
    (by
      rw [he, hew]
      exact Nat.mul_lt_mul_of_lt_of_le (by omega) (Nat.pow_le_pow_right (by decide) (by omega))
        (Nat.two_pow_pos _))
  refine ⟨w1, w2, ?_⟩
  rw [val_eq_imag, w3, hsum]
  have hu : b64.uexp = -(c : ℤ) - 52 := by rw [hc]; decide
  rw [hu, zpow_sub₀ (by decide), zpow_neg, zpow_natCast]
  push_cast
  have : (2 : ℚ) ^ c ≠ 0 := pow_ne_zero _ (by decide)
  rw [mul_assoc, mul_div_assoc', mul_inv_cancel₀ this]
  ring

/-- **C17.**  Every draw is a finite double in `[0, 1)`, a multiple of `2^-52`: the 52 leading
bits of the 64-bit number drawn. -/
theorem C17_draw_range (s : St) :
    (toDouble (output s)).Fin b64 ∧ 0 ≤ (toDouble (output s)).val b64 ∧
    (toDouble (output s)).val b64 < 1 ∧
    ∃ k : ℕ, k < 2 ^ 52 ∧ (toDouble (output s)).val b64 = k / 2 ^ 52 := by
  obtain ⟨-, h2, h3⟩ := toDouble_spec (output s)
  have hx : (output s).toNat / 2 ^ 12 < 2 ^ 52 := by have := (output s).isLt; omega
  rw [h3]
  refine ⟨h2, by positivity, ?_, _, hx, rfl⟩
  rw [div_lt_one (by positivity)]
  exact_mod_cast hx

/-- **C17.**  Every multiple of `2^-52` in `[0,1)` is drawn, from every non-degenerate
starting state, within one period. -/
theorem C17_every_value (s : St) (hs : s ≠ ⟨0, 0⟩) (k : ℕ) (hk : k < 2 ^ 52) :
    ∃ n, n < 2 ^ 128 - 1 ∧ (toDouble (output (next^[n] s))).val b64 = k / 2 ^ 52 := by
  -- a nonzero state with output `k * 2^12 + 1`
  let w : U64 := BitVec.ofNat 64 (k * 2 ^ 12 + 1)
  have hw : w.toNat = k * 2 ^ 12 + 1 := by
    simp only [w, BitVec.toNat_ofNat]; apply Nat.mod_eq_of_lt; omega
  let s' : St := ⟨0, rotl w 47⟩
  have ho : output s' = w := by
    have : rotl (rotl w 47) 17 = w := rotl_inv w 47 (by decide) (by decide)
    unfold output; simp only [s']
    have e : (0 : U64) + rotl w 47 = rotl w 47 := BitVec.zero_add _
    rw [e, this]; exact BitVec.add_zero _
  have hs' : s' ≠ 0 := by
    intro h
    rw [h] at ho
    have h0 : output 0 = 0#64 := by decide +kernel
    rw [h0] at ho
    have := congrArg BitVec.toNat ho
    rw [hw] at this; simp at this
  obtain ⟨n, hn, he⟩ := reach s s' hs hs'
  refine ⟨n, hn, ?_⟩
  rw [he, ho, (toDouble_spec w).2.2, hw]
  congr 2; omega

/-- Zero is a possible draw: the interval is not open, contrary to the comment of
`get_rand_double01` (vfc_rng.c:93). -/
theorem C17_zero_possible : ∃ s : St, s ≠ ⟨0, 0⟩ ∧ (toDouble (output s)).val b64 = 0 := by
  obtain ⟨n, -, h⟩ := C17_every_value ⟨1, 0⟩ (by decide) 0 (by decide)
  exact ⟨next^[n] ⟨1, 0⟩, iterate_ne_zero n _ (by decide +kernel), by rw [h]; simp⟩

example : (toDouble 0x8000000000000000#64) = ⟨false, 1022, 0⟩ := by decide +kernel

/-! ## C18 -/

/-- **C18, negation.**  Seed `0x61C8864680B583EB` mixed with the rank: the generator of that
thread is stuck in the all-zero state and draws 0 forever. -/
theorem C18_degenerate (seed : U64) (r : Nat) (h : mix seed r = 0x61C8864680B583EB#64) (k : Nat) :
    stream (mix seed r) k = ⟨0, 0⟩ ∧ output (stream (mix seed r) k) = 0#64 := by
  have h0 : stream (mix seed r) k = 0 := by
    rw [h]; unfold stream
    have : (⟨nextSeed 0x61C8864680B583EB#64, nextSeed 0x61C8864680B583EB#64⟩ : St) = 0 := by
      decide +kernel
    rw [this]
    induction k with
    | zero => rfl
    | succ k ih => rw [Function.iterate_succ_apply', ih, next_zero]
  refine ⟨h0, ?_⟩
  rw [h0]; decide +kernel

/-- The bad seed of the main thread. -/
example : mix 0x61C8864680B583EA#64 1 = 0x61C8864680B583EB#64 := by decide +kernel

/-- For every rank there is exactly one bad seed. -/
theorem C18_one_bad_seed (r : Nat) : ∃! seed : U64, mix seed r = 0x61C8864680B583EB#64 := by
  refine ⟨mix 0x61C8864680B583EB#64 r, ?_, ?_⟩
  · simp only [mix, BitVec.xor_assoc, BitVec.xor_self]; simp
  · intro y hy
    rw [← hy]; simp only [mix, BitVec.xor_assoc, BitVec.xor_self]; simp

/-- **C18.**  For every other seed the generator has the full period: the states of the
stream repeat after exactly `2^128 - 1` draws, and every nonzero state occurs. -/
theorem C18_full_period_partial (seed : U64) (r : Nat) (h : mix seed r ≠ 0x61C8864680B583EB#64) :
    (∀ i j, stream (mix seed r) i = stream (mix seed r) j ↔ i % (2 ^ 128 - 1) = j % (2 ^ 128 - 1)) ∧
    (∀ s : St, s ≠ ⟨0, 0⟩ → ∃ n, n < 2 ^ 128 - 1 ∧ stream (mix seed r) n = s) ∧
    (∀ v : U64, ∃ n, n < 2 ^ 128 - 1 ∧ output (stream (mix seed r) n) = v) := by
  have hne : (⟨nextSeed (mix seed r), nextSeed (mix seed r)⟩ : St) ≠ 0 := by
    intro h0
    apply h
    apply nextSeed_injective
    have h1 : nextSeed (mix seed r) = 0#64 := congrArg St.s0 h0
    rw [h1]; decide +kernel
  have hs : ∀ s : St, s ≠ ⟨0, 0⟩ → ∃ n, n < 2 ^ 128 - 1 ∧ stream (mix seed r) n = s :=
    fun s hs => reach _ s hne hs
  refine ⟨?_, hs, ?_⟩
  · intro i j
    have hp := minimalPeriod_all _ hne
    unfold stream
    have := Function.iterate_eq_iterate_iff_of_lt_minimalPeriod (f := next)
      (x := ⟨nextSeed (mix seed r), nextSeed (mix seed r)⟩) (m := i % N) (n := j % N)
      (by rw [hp]; exact Nat.mod_lt _ (by decide +kernel)) (by rw [hp]; exact Nat.mod_lt _ (by decide +kernel))
    rw [← hp, Function.iterate_mod_minimalPeriod_eq, Function.iterate_mod_minimalPeriod_eq, hp] at this
    exact this
  · intro v
    by_cases hv : v = 0#64
    · -- output 0 from `s0 = 1`
      subst hv
      obtain ⟨n, hn, he⟩ := hs ⟨1, rotl (0 - 1) 47 - 1⟩ (by decide +kernel)
      exact ⟨n, hn, by rw [he]; decide +kernel⟩
    · obtain ⟨n, hn, he⟩ := hs ⟨0, rotl v 47⟩ (by
        intro h0
        apply hv
        have h1 : rotl v 47 = 0#64 := congrArg St.s1 h0
        have : rotl (rotl v 47) 17 = v := rotl_inv v 47 (by decide) (by decide)
        rw [← this, h1]; decide +kernel)
      refine ⟨n, hn, ?_⟩
      rw [he]
      have : rotl (rotl v 47) 17 = v := rotl_inv v 47 (by decide) (by decide)
      unfold output; simp only
      have e : (0 : U64) + rotl v 47 = rotl v 47 := BitVec.zero_add _
      rw [e, this]; exact BitVec.add_zero _

example : mix 42 1 ≠ 0x61C8864680B583EB#64 := by decide +kernel

/-! ## C16, on the numbers drawn -/

theorem count_periodic (p : Nat → Prop) [DecidablePred p] (d : Nat) (hp : ∀ k, p (d + k) ↔ p k) (m : Nat) :
    Nat.count p (d * m) = m * Nat.count p d := by
  induction m with
  | zero => simp
  | succ m ih =>
    rw [Nat.mul_succ, Nat.add_comm, Nat.count_add]
    have : Nat.count (fun k => p (d + k)) (d * m) = Nat.count p (d * m) := by
      congr 1; funext k; exact propext (hp k)
    have h2 : Nat.count (fun k => p (d + k)) (d * m) = Nat.count p (d * m) := by
      simp only [hp]
    rw [h2, ih]; ring

theorem output_s1_inj (a b : St) (h : output a = output b) (h0 : a.s0 = b.s0) : a = b := by
  have h1 : rotl (a.s0 + a.s1) 17 = rotl (b.s0 + b.s1) 17 := by
    unfold output at h; rw [h0] at h
    have := (BitVec.add_left_inj _).1 h
    rw [h0]; exact this
  have h2 := rotl_injective 17 (by decide) (by decide) h1
  rw [h0] at h2
  have h3 := (BitVec.add_right_inj _).1 h2
  exact St.ext' h0 h3

theorem card_output_one (a : St) (ha : a ≠ 0) :
    Nat.count (fun k => output (next^[k] a) = 1#64) N = 2 ^ 64 := by
  rw [Nat.count_eq_card_filter_range]
  have hc : (Finset.univ : Finset (Fin (2 ^ 64))).card = 2 ^ 64 := by simp
  rw [← hc]
  apply Finset.card_bij (fun k _ => (next^[k] a).s0.toFin)
  · intro k _; exact Finset.mem_univ _
  · intro k hk l hl h
    rw [Finset.mem_filter, Finset.mem_range] at hk hl
    have h0 : (next^[k] a).s0 = (next^[l] a).s0 := BitVec.eq_of_toFin_eq h
    have := output_s1_inj _ _ (hk.2.trans hl.2.symm) h0
    exact Function.iterate_injOn_Iio_minimalPeriod (by rw [minimalPeriod_all a ha]; exact hk.1)
      (by rw [minimalPeriod_all a ha]; exact hl.1) this
  · intro w _
    let w' : U64 := ⟨w⟩
    let s : St := ⟨w', rotl (1#64 - w') 47 - w'⟩
    have ho : output s = 1#64 := by
      have h1 : rotl (rotl (1#64 - w') 47) 17 = 1#64 - w' := rotl_inv _ 47 (by decide) (by decide)
      unfold output; simp only [s]
      have h2 : w' + (rotl (1#64 - w') 47 - w') = rotl (1#64 - w') 47 := by
        rw [BitVec.add_comm, BitVec.sub_add_cancel]
      rw [h2, h1, BitVec.sub_add_cancel]
    have hs : s ≠ 0 := by
      intro h; rw [h] at ho; revert ho; decide +kernel
    obtain ⟨n, hn, he⟩ := reach a s ha hs
    refine ⟨n, ?_, ?_⟩
    · rw [Finset.mem_filter, Finset.mem_range]; exact ⟨hn, by rw [he, ho]⟩
    · rw [he]

/-- Different states draw different sequences of numbers. -/
theorem outputs_inj (a b : St) (h : ∀ k, output (next^[k] a) = output (next^[k] b)) : a = b := by
  have hz : ∀ k, next^[k] (0 : St) = 0 := by
    intro k
    induction k with
    | zero => rfl
    | succ k ih => rw [Function.iterate_succ_apply', ih, next_zero]
  have key : ∀ c : St, (∀ k, output (next^[k] c) = 0#64) → c = 0 := by
    intro c hc
    by_contra hne
    obtain ⟨n, -, he⟩ := reach c v0 hne (by decide +kernel)
    have := hc n
    rw [he] at this
    revert this; decide +kernel
  have ho0 : output 0 = 0#64 := by decide +kernel
  by_cases ha : a = 0
  · subst ha
    exact (key b (fun k => by rw [← h k, hz, ho0])).symm
  by_cases hb : b = 0
  · subst hb
    exact key a (fun k => by rw [h k, hz, ho0])
  obtain ⟨d, hd, rfl⟩ := reach a b ha hb
  rcases Nat.eq_zero_or_pos d with rfl | hd0
  · rfl
  exfalso
  let p : Nat → Prop := fun k => output (next^[k] a) = 1#64
  have hpd : ∀ k, p (d + k) ↔ p k := by
    intro k
    simp only [p]
    rw [h k, ← Function.iterate_add_apply, Nat.add_comm]
  have hpN : ∀ k, p (N + k) ↔ p k := by
    intro k
    simp only [p]
    have hN : next^[N] a = a := by
      have := Function.iterate_minimalPeriod (f := next) (x := a)
      rwa [minimalPeriod_all a ha] at this
    rw [Nat.add_comm, Function.iterate_add_apply, hN]
  have e1 := count_periodic p d hpd N
  have e2 := count_periodic p N hpN d
  rw [Nat.mul_comm d N, e2, card_output_one a ha] at e1
  have hdvd : N ∣ d * 2 ^ 64 := ⟨_, e1⟩
  have hcop : Nat.Coprime N (2 ^ 64) := by
    apply Nat.Coprime.pow_right
    decide +kernel
  have := hcop.dvd_of_dvd_mul_right hdvd
  have := Nat.le_of_dvd hd0 this
  omega

/-- **C16.**  Two different threads never draw the same sequence of numbers. -/
theorem C16_distinct_numbers (seed : U64) (sched : List Nat) (t u : Nat) (htu : t ≠ u)
    (ht : t ∈ sched) (hu : u ∈ sched) (hlen : (arrival sched).length < 2 ^ 32) :
    ∃ k, output (stream (mix seed (rank sched t)) k) ≠ output (stream (mix seed (rank sched u)) k) := by
  by_contra hcon
  have h : ∀ k, output (stream (mix seed (rank sched t)) k) = output (stream (mix seed (rank sched u)) k) := by
    intro k; by_contra hk; exact hcon ⟨k, hk⟩
  exact (C16_distinct_streams seed sched t u 0 htu ht hlen hu).2 (outputs_inj _ _ h)

/-! ## C51 -/

/-- **C51.**  `pop` after `push` restores the generator exactly, whatever was drawn in
between. -/
theorem C51_pop_restores (s : Saved) (seed : U64) (f : RngState → RngState) :
    (pop { push s seed with cur := f (push s seed).cur }).cur = s.cur := rfl

/-- **C51.**  On a generator not used yet, `push seed` makes the following draws those of
`seed` (mixed with the rank of the thread). -/
theorem C51_push_fresh_partial (s : Saved) (seed env : U64) (r : Nat) (h : s.cur.valid = false) :
    (draw (push s seed).cur (BitVec.ofNat 32 r) env).1 = output (stream (mix seed r) 0) ∧
    (draw (push s seed).cur (BitVec.ofNat 32 r) env).2.st = stream (mix seed r) 1 := by
  simp [draw, push, initStruct, initRandom, setSeed, stream, mix, h]

/-- **C51, negation.**  On a generator already in use `push` does nothing: the draws that
follow do not depend on the seed pushed. -/
theorem C51_push_used_ignored (s : Saved) (seed : U64) (h : s.cur.valid = true) :
    (push s seed).cur = s.cur := by
  simp [push, initStruct, h]

/-- … and a generator that has drawn is in use. -/
theorem C51_used_after_draw (r : RngState) (tid : BitVec 32) (env : U64) :
    (draw r tid env).2.valid = true := by
  unfold draw initRandom; cases h : r.valid <;> simp [h]

/-- Nested saves lose the outer state: there is only one slot. -/
theorem C51_nesting_lost : ∃ (s : Saved) (a b : U64),
    (pop (pop (push { push s a with cur := (draw (push s a).cur 1 0).2 } b))).cur ≠ s.cur := by
  exact ⟨⟨RngState.fresh, RngState.fresh⟩, 1, 2, by decide +kernel⟩

example : (RngState.fresh).valid = false ∧ (draw RngState.fresh 1 0).2.valid = true := by decide +kernel

end Verif.Rng
