import Verif.Vtk.Model
import Mathlib.Analysis.SpecialFunctions.Log.Base
import Mathlib.Analysis.SpecialFunctions.Pow.Real
import Mathlib.Data.List.Nodup
import Mathlib.Tactic.Linarith
import Mathlib.Tactic.Ring
import Mathlib.Tactic.FieldSimp
import Mathlib.Tactic.Positivity
import Mathlib.Tactic.NormNum

/-!
# C105: the VTK postprocessing tool
-/

namespace Verif.Vtk
open Verif Verif.Ci.Report

/-! ## Digits -/

/-- The number written. -/
noncomputable def Cell.value : Cell → ℝ
  | .num q => q
  | .root q => Real.sqrt q
  | .digits q => -Real.logb 10 (Real.sqrt q)

theorem var_nonneg (xs : List ℚ) : 0 ≤ var xs := by
  unfold var
  refine div_nonneg (List.sum_nonneg ?_) (Nat.cast_nonneg _)
  intro x hx
  obtain ⟨y, -, rfl⟩ := List.mem_map.1 hx
  positivity

/-- `-log10 (sqrt q)` is at least `k` when `q` is at most `10^(-2k)`. -/
theorem le_digits (q : ℚ) (hq : 0 < q) (k : ℕ) : (k : ℝ) ≤ (Cell.digits q).value ↔ q * 10 ^ (2 * k) ≤ 1 := by
  have hr : (0 : ℝ) < q := by exact_mod_cast hq
  have hs : 0 < Real.sqrt q := Real.sqrt_pos.2 hr
  unfold Cell.value
  rw [le_neg, Real.logb_le_iff_le_rpow (by norm_num) hs, Real.rpow_neg (by norm_num), Real.rpow_natCast]
  have hp : (0 : ℝ) < 10 ^ k := by positivity
  rw [← one_div, le_div_iff₀ hp]
  have h1 : Real.sqrt q * 10 ^ k ≤ 1 ↔ (Real.sqrt q * 10 ^ k) ^ 2 ≤ 1 := by
    constructor
    · intro h; exact pow_le_one₀ (by positivity) h
    · intro h
      by_contra hc
      push Not at hc
      exact absurd h (not_le.2 (one_lt_pow₀ hc (by norm_num)))
  rw [h1, mul_pow, Real.sq_sqrt hr.le, ← pow_mul, mul_comm k 2]
  exact_mod_cast Iff.rfl

/-- **C105, digits.**  If the mean of the traces is positive, the number written is between 0 and 17 and it is at least `k`, for `k` from 1 to 17, exactly
if the standard deviation is at most the mean divided by `10^k`. -/
theorem C105_digits_partial (args : Args) (ha : args.std = false) (xs : List ℚ) (h : 0 < mean xs) :
    0 ≤ (accuracy args xs).value ∧ (accuracy args xs).value ≤ 17 ∧
      ∀ k : ℕ, 1 ≤ k → k ≤ 17 → ((k : ℝ) ≤ (accuracy args xs).value ↔ Real.sqrt (var xs) * 10 ^ k ≤ mean xs) := by
  have hv := var_nonneg xs
  have hm2 : 0 < mean xs ^ 2 := by positivity
  have sq : ∀ k : ℕ, Real.sqrt (var xs) * 10 ^ k ≤ mean xs ↔ var xs * 10 ^ (2 * k) ≤ mean xs ^ 2 := by
    intro k
    have hm : (0 : ℝ) ≤ mean xs := by exact_mod_cast h.le
    have h1 : Real.sqrt (var xs) * 10 ^ k ≤ mean xs ↔ (Real.sqrt (var xs) * 10 ^ k) ^ 2 ≤ (mean xs : ℝ) ^ 2 :=
      (pow_le_pow_iff_left₀ (by positivity) hm (by norm_num)).symm
    rw [h1, mul_pow, Real.sq_sqrt (by exact_mod_cast hv), ← pow_mul, mul_comm k 2]
    exact_mod_cast Iff.rfl
  simp only [accuracy, ha, Bool.false_eq_true, if_false, negLog, h.ne', h.not_gt, sq]
  by_cases h0 : var xs = 0
  · simp only [h0, if_true, clamp, Cell.value, zero_mul, hm2.le, iff_true]
    refine ⟨by norm_num, by norm_num, fun k _ hk => by exact_mod_cast hk⟩
  · have hvp : 0 < var xs := lt_of_le_of_ne hv (Ne.symm h0)
    have hq : 0 < var xs / mean xs ^ 2 := div_pos hvp hm2
    simp only [h0, if_false]
    have conv : ∀ k : ℕ, var xs * 10 ^ (2 * k) ≤ mean xs ^ 2 ↔ var xs / mean xs ^ 2 * 10 ^ (2 * k) ≤ 1 := by
      intro k
      rw [div_mul_eq_mul_div, div_le_one hm2]
    simp only [conv]
    generalize var xs / mean xs ^ 2 = q at hq
    simp only [clamp]
    split_ifs with h1 h2
    · refine ⟨by simp [Cell.value], by simp [Cell.value], fun k hk _ => ?_⟩
      have hk0 : ¬ ((k : ℝ) ≤ (Cell.num 0).value) := by
        have : (1 : ℝ) ≤ k := by exact_mod_cast hk
        simp only [Cell.value, Rat.cast_zero, not_le]
        linarith
      have : (1 : ℚ) ≤ 10 ^ (2 * k) := one_le_pow₀ (by norm_num)
      exact iff_of_false hk0 (by nlinarith)
    · refine ⟨by simp [Cell.value], by simp [Cell.value], fun k _ hk => ?_⟩
      have hk0 : (k : ℝ) ≤ (Cell.num 17).value := by
        simp only [Cell.value]
        exact_mod_cast hk
      refine iff_of_true hk0 ?_
      have h3 : (10 : ℚ) ^ (2 * k) ≤ 10 ^ 34 := pow_le_pow_right₀ (by norm_num) (by omega)
      have h4 : q * 10 ^ 34 < 1 := by
        rw [lt_div_iff₀ (by positivity)] at h2
        exact h2
      nlinarith
    · refine ⟨?_, ?_, fun k _ _ => le_digits q hq k⟩
      · have := (le_digits q hq 0).2 (by simpa using h1)
        simpa using this
      · have hr : (0 : ℝ) < q := by exact_mod_cast hq
        unfold Cell.value
        rw [neg_le, Real.le_logb_iff_rpow_le (by norm_num) (Real.sqrt_pos.2 hr), Real.rpow_neg (by norm_num)]
        have e : ((10 : ℝ) ^ (17 : ℝ))⁻¹ = 1 / 10 ^ 17 := by
          rw [show (17 : ℝ) = ((17 : ℕ) : ℝ) by norm_num, Real.rpow_natCast, one_div]
        rw [e]
        refine Real.le_sqrt_of_sq_le ?_
        push Not at h2
        have h5 : ((1 / 10 ^ 34 : ℚ) : ℝ) ≤ q := by exact_mod_cast h2
        refine le_trans (le_of_eq ?_) h5
        push_cast
        norm_num

/-- Two traces, 1000 and 1001: three digits, not four. -/
example : (3 : ℝ) ≤ (accuracy {} [1000, 1001]).value ∧ ¬ (4 : ℝ) ≤ (accuracy {} [1000, 1001]).value := by
  have hm : mean [1000, 1001] = 2001 / 2 := by decide +kernel
  have hv : var [1000, 1001] = 1 / 4 := by decide +kernel
  have hs : accuracy {} [1000, 1001] = .digits (1 / 4004001) := by decide +kernel
  rw [hs]
  refine ⟨?_, ?_⟩
  · have := (le_digits (1 / 4004001) (by norm_num) 3).2 (by norm_num)
    exact_mod_cast this
  · intro h
    have := (le_digits (1 / 4004001) (by norm_num) 4).1 (by exact_mod_cast h)
    norm_num at this

/-- **C105, `--std`.** -/
theorem C105_std (args : Args) (ha : args.std = true) (xs : List ℚ) : (accuracy args xs).value = Real.sqrt (var xs) := by
  simp [accuracy, ha, Cell.value]

theorem mean_neg (xs : List ℚ) : mean (xs.map (-·)) = -mean xs := by
  unfold mean
  rw [List.length_map]
  have : (xs.map (-·)).sum = -xs.sum := by
    induction xs with
    | nil => simp
    | cons x xs ih => simp [ih]; ring
  rw [this]
  ring

theorem var_neg (xs : List ℚ) : var (xs.map (-·)) = var xs := by
  unfold var
  rw [List.length_map, mean_neg, List.map_map]
  congr 2
  refine List.map_congr_left fun x _ => ?_
  simp only [Function.comp]
  ring

/-- **C105, negative numbers.**  False: of numbers whose mean is negative and which are not all equal the tool says that no digit is significant, whatever
they are, though it finds digits in the same numbers with the other sign. -/
theorem C105_negative_wrong (args : Args) (ha : args.std = false) (xs : List ℚ) (h : mean xs < 0) (hv : var xs ≠ 0) :
    (accuracy args xs).value = 0 ∧
      ∀ k : ℕ, 1 ≤ k → k ≤ 17 → ((k : ℝ) ≤ (accuracy args (xs.map (-·))).value ↔ Real.sqrt (var xs) * 10 ^ k ≤ |(mean xs : ℝ)|) := by
  refine ⟨by simp [accuracy, ha, negLog, h.ne, hv, h, clamp, Cell.value], fun k h1 h2 => ?_⟩
  have := (C105_digits_partial args ha (xs.map (-·)) (by rw [mean_neg]; linarith)).2.2 k h1 h2
  rw [this, var_neg, mean_neg, abs_of_neg (by exact_mod_cast h)]
  push_cast
  rfl

/-- -1000000 and -1000001 agree on six digits, and are given none. -/
example : (accuracy {} [-1000000, -1000001]).value = 0 ∧ (6 : ℝ) ≤ (accuracy {} [1000000, 1000001]).value := by
  obtain ⟨h1, h2⟩ := C105_negative_wrong {} rfl [-1000000, -1000001] (by decide +kernel) (by decide +kernel)
  refine ⟨h1, ?_⟩
  have e : accuracy {} [1000000, 1000001] = .digits (1 / (2000001) ^ 2) := by decide +kernel
  rw [e]
  exact_mod_cast (le_digits _ (by norm_num) 6).2 (by norm_num)

/-- **C105, equal numbers.**  Numbers that all traces agree on have 17 digits, even if there is one trace only; except zero, which has none. -/
theorem C105_equal (args : Args) (ha : args.std = false) (n : ℕ) (x : ℚ) (hn : 0 < n) :
    (accuracy args (List.replicate n x)).value = if x = 0 then 0 else 17 := by
  have hn' : (n : ℚ) ≠ 0 := by exact_mod_cast hn.ne'
  have hm : mean (List.replicate n x) = x := by
    unfold mean
    rw [List.sum_replicate, List.length_replicate, nsmul_eq_mul]
    field_simp
  have hv : var (List.replicate n x) = 0 := by
    unfold var
    rw [hm]
    simp
  simp only [accuracy, ha, hm, hv, negLog]
  split_ifs <;> simp_all [clamp, Cell.value]

example : (accuracy {} [0, 0, 0]).value = 0 := by
  have := C105_equal {} rfl 3 0 (by norm_num)
  simpa using this

/-! ## Files -/

/-- Arrays of type `Float32`, each with the number of its section, in document order. -/
def floats (d : Doc ℚ) : List (Nat × Arr ℚ) := (d.mapIdx fun i s => (s.arrays.filter (·.type == "Float32")).map fun a => (i, a)).flatten

/-- The only array of type `Float32` with that name has these numbers. -/
def Only (d : Doc ℚ) (n : String) (xs : List ℚ) : Prop :=
  ∃ a, (d.flatMap (·.arrays)).filter (fun a => a.type == "Float32" && a.name == some n) = [a] ∧ a.data = some xs

/-- Where the accuracy of the arrays of a section goes: to the section itself, that of coordinates to the first `PointData`. -/
def home (d : Doc ℚ) (i : Nat) : Option Nat :=
  if (d[i]?.map (·.tag)) = some "Points" then d.findIdx? (·.tag == "PointData") else some i

theorem row_only {d : Doc ℚ} {n : String} {xs : List ℚ} (h : Only d n xs) : row n d = .ok xs := by
  obtain ⟨a, ha, hx⟩ := h
  have key : ∀ d : Doc ℚ, (d.flatMap (·.arrays)).filter (Arr.matches n) = [a] → (locate n d).bind (arrayAt d) = some a := by
    intro d
    induction d with
    | nil => intro h; simp at h
    | cons s t ih =>
      intro h
      rw [List.flatMap_cons, List.filter_append] at h
      unfold locate
      cases hj : s.arrays.findIdx? (Arr.matches n) with
      | none =>
        have : s.arrays.filter (Arr.matches n) = [] := by
          rw [List.findIdx?_eq_none_iff] at hj
          rw [List.filter_eq_nil_iff]
          intro b hb
          simp [hj b hb]
        rw [this, List.nil_append] at h
        have := ih h
        simp only
        cases hl : locate n t with
        | none => rw [hl] at this; simp at this
        | some p =>
          rw [hl] at this
          simpa [arrayAt] using this
      | some j =>
        obtain ⟨hlt, hm, -⟩ := List.findIdx?_eq_some_iff_getElem.1 hj
        have hmem : s.arrays[j] ∈ s.arrays.filter (Arr.matches n) := List.mem_filter.2 ⟨List.getElem_mem _, hm⟩
        have : s.arrays[j] ∈ [a] := by rw [← h]; exact List.mem_append_left _ hmem
        rw [List.mem_singleton] at this
        simp [arrayAt, hlt, this]
  unfold row
  rw [key d ha]
  simp [hx]

theorem rows_only (n : String) (X : Doc ℚ → List ℚ) : ∀ inputs : List (Doc ℚ), (∀ t ∈ inputs, Only t n (X t)) → rows n inputs = .ok (inputs.map X)
  | [], _ => rfl
  | t :: ts, h => by
    unfold rows
    rw [row_only (h t (by simp)), Outcome.bind_ok, rows_only n X ts fun t ht => h t (by simp [ht]), Outcome.bind_ok]
    rfl

theorem columns_ok (X : Doc ℚ → List ℚ) (inputs : List (Doc ℚ)) (w : Nat) (h0 : inputs ≠ []) (hw : ∀ t ∈ inputs, (X t).length = w) :
    columns (inputs.map X) = .ok ((List.range w).map fun j => inputs.map fun t => (X t).getD j 0) := by
  cases inputs with
  | nil => exact absurd rfl h0
  | cons t ts =>
    simp only [List.map_cons, columns]
    rw [if_pos]
    · rw [hw t (by simp)]
      simp [List.map_map, Function.comp_def]
    · rw [List.all_eq_true]
      intro r hr
      rw [← List.map_cons] at hr
      obtain ⟨u, hu, rfl⟩ := List.mem_map.1 hr
      rw [hw u hu, hw t (by simp)]
      simp

/-- An array as the parser reads it. -/
def parseArr (a : Arr ℚ) : Arr Cell := { type := a.type, name := a.name, other := a.other, data := a.data.map (·.map Cell.num) }

theorem parsed_eq (d : Doc ℚ) : parsed d = d.map fun s => ⟨s.tag, s.arrays.map parseArr⟩ := rfl

/-- The array with the accuracy of an array.  `cols n` are the values of each number of the array `n` in all traces. -/
def accOf (args : Args) (cols : String → List (List ℚ)) (a : Arr ℚ) : Arr Cell :=
  { type := a.type, name := some (shown a.name ++ "_vfc_accuracy"), other := a.other, data := some ((cols (shown a.name)).map (accuracy args)) }

/-- An array of the output: with `--mean` its numbers are those of the traces in the mean. -/
def meanOf (args : Args) (cols : String → List (List ℚ)) (a : Arr ℚ) : Arr Cell :=
  if args.mean = true ∧ a.type = "Float32" then { parseArr a with data := some ((cols (shown a.name)).map fun c => .num (mean c)) } else parseArr a

/-- After some of the arrays. -/
def mergedTo (args : Args) (d : Doc ℚ) (cols : String → List (List ℚ)) (L : List (Nat × Arr ℚ)) : Doc Cell :=
  d.mapIdx fun i s => ⟨s.tag, ((L.filter fun x => home d x.1 = some i).reverse.map fun x => accOf args cols x.2) ++
    s.arrays.map fun a => if a.name ∈ L.map (·.2.name) then meanOf args cols a else parseArr a⟩

/-- What the output is to be: in every section the accuracies that go there, the last first, then its arrays. -/
def merged (args : Args) (d : Doc ℚ) (cols : String → List (List ℚ)) : Doc Cell :=
  d.mapIdx fun i s => ⟨s.tag, (((floats d).filter fun x => home d x.1 = some i).reverse.map fun x => accOf args cols x.2) ++
    s.arrays.map (meanOf args cols)⟩

/-- Files the tool can work on: arrays of type `Float32` have names without quotes, all different and different from the names the tool adds, and there is a
`PointData` for the coordinates. -/
structure Ready (d : Doc ℚ) : Prop where
  named : ∀ x ∈ floats d, ∃ n, x.2.name = some n ∧ '\'' ∉ n.toList
  nodup : ((floats d).map (·.2.name)).Nodup
  fresh : ∀ x ∈ floats d, ∀ y ∈ floats d, ∀ n, y.2.name = some n → x.2.name ≠ some (n ++ "_vfc_accuracy")
  home : ∀ x ∈ floats d, ∃ k, Vtk.home d x.1 = some k

theorem mem_floats {d : Doc ℚ} {i : Nat} {a : Arr ℚ} : (i, a) ∈ floats d ↔
    ∃ s, ∃ j : Nat, d[i]? = some s ∧ s.arrays[j]? = some a ∧ a.type = "Float32" := by
  unfold floats
  rw [List.mem_flatten]
  constructor
  · rintro ⟨l, hl, ha⟩
    obtain ⟨k, hk, rfl⟩ := List.mem_mapIdx.1 hl
    obtain ⟨b, hb, e⟩ := List.mem_map.1 ha
    cases e
    obtain ⟨h1, h2⟩ := List.mem_filter.1 hb
    obtain ⟨j, hj, rfl⟩ := List.mem_iff_getElem.1 h1
    exact ⟨d[i], j, by simp [hk], by simp [hj], by simpa using h2⟩
  · rintro ⟨s, j, hs, hj, ht⟩
    obtain ⟨hi, rfl⟩ := List.getElem?_eq_some_iff.1 hs
    refine ⟨_, List.mem_mapIdx.2 ⟨i, hi, rfl⟩, List.mem_map.2 ⟨a, List.mem_filter.2 ⟨List.mem_of_getElem? hj, by simpa using ht⟩, rfl⟩⟩

theorem names_eq (d : Doc ℚ) : names d = (floats d).map (·.2.name) := by
  unfold names floats
  rw [List.map_flatten, List.flatMap_def]
  congr 1
  refine List.ext_getElem? fun i => ?_
  simp only [List.getElem?_map, List.getElem?_mapIdx]
  cases d[i]? with
  | none => rfl
  | some s => simp [List.map_map, Function.comp_def]

/-- Arrays with the same name are at the same place. -/
theorem Ready.same {d : Doc ℚ} (h : Ready d) {i i' j j' : Nat} {s s' : Section ℚ} {a a' : Arr ℚ} (hs : d[i]? = some s) (ha : s.arrays[j]? = some a)
    (ht : a.type = "Float32") (hs' : d[i']? = some s') (ha' : s'.arrays[j']? = some a') (ht' : a'.type = "Float32") (hn : a.name = a'.name) :
    i = i' ∧ j = j' := by
  have hd : (d.flatMap fun s => (s.arrays.filter (·.type == "Float32")).map (·.name)).Nodup := by
    have := h.nodup
    rw [← names_eq] at this
    exact this
  rw [List.nodup_flatMap] at hd
  obtain ⟨h1, h2⟩ := hd
  have memname : ∀ {s : Section ℚ} {j : Nat} {a : Arr ℚ}, s.arrays[j]? = some a → a.type = "Float32" →
      a.name ∈ (s.arrays.filter (·.type == "Float32")).map (·.name) := by
    intro s j a hj ht
    exact List.mem_map.2 ⟨a, List.mem_filter.2 ⟨List.mem_of_getElem? hj, by simpa using ht⟩, rfl⟩
  obtain ⟨li, ei⟩ := List.getElem?_eq_some_iff.1 hs
  obtain ⟨li', ei'⟩ := List.getElem?_eq_some_iff.1 hs'
  rw [List.pairwise_iff_getElem] at h2
  have hii : i = i' := by
    rcases lt_trichotomy i i' with hlt | heq | hgt
    · have := h2 i i' li li' hlt
      rw [Function.onFun, ei, ei'] at this
      exact absurd (memname ha' ht') (this (hn ▸ memname ha ht))
    · exact heq
    · have := h2 i' i li' li hgt
      rw [Function.onFun, ei, ei'] at this
      exact absurd (memname ha ht) (this (hn ▸ memname ha' ht'))
  refine ⟨hii, ?_⟩
  subst hii
  rw [hs] at hs'
  cases hs'
  have h3 := h1 s (List.mem_of_getElem? hs)
  rw [List.Nodup, List.pairwise_map, List.pairwise_filter, List.pairwise_iff_getElem] at h3
  obtain ⟨lj, ej⟩ := List.getElem?_eq_some_iff.1 ha
  obtain ⟨lj', ej'⟩ := List.getElem?_eq_some_iff.1 ha'
  rcases lt_trichotomy j j' with hlt | heq | hgt
  · have := h3 j j' lj lj' hlt (by rw [ej]; simpa using ht) (by rw [ej']; simpa using ht')
    rw [ej, ej'] at this
    exact absurd hn this
  · exact heq
  · have := h3 j' j lj' lj hgt (by rw [ej']; simpa using ht') (by rw [ej]; simpa using ht)
    rw [ej, ej'] at this
    exact absurd hn.symm this

/-- `find` finds what is there once. -/
theorem locate_unique {α : Type} (n : String) : ∀ (d : Doc α) (i j : Nat) (a : Arr α), arrayAt d (i, j) = some a → Arr.matches n a = true →
    (∀ p b, arrayAt d p = some b → Arr.matches n b = true → p = (i, j)) → locate n d = some (i, j)
  | [], i, j, a, h, _, _ => by simp [arrayAt] at h
  | s :: t, i, j, a, h, hm, hu => by
    unfold locate
    cases i with
    | zero =>
      have hj : s.arrays[j]? = some a := by simpa [arrayAt] using h
      obtain ⟨lj, ej⟩ := List.getElem?_eq_some_iff.1 hj
      have : s.arrays.findIdx? (Arr.matches n) = some j := by
        rw [List.findIdx?_eq_some_iff_getElem]
        refine ⟨lj, by rw [ej]; exact hm, fun k hk => ?_⟩
        intro hc
        have := hu (0, k) s.arrays[k] (by simp [arrayAt]) hc
        simp only [Prod.mk.injEq, true_and] at this
        omega
      rw [this]
    | succ i =>
      have : s.arrays.findIdx? (Arr.matches n) = none := by
        rw [List.findIdx?_eq_none_iff]
        intro b hb
        obtain ⟨k, lk, rfl⟩ := List.mem_iff_getElem.1 hb
        by_contra hc
        have := hu (0, k) s.arrays[k] (by simp [arrayAt, lk]) (by simpa using hc)
        simp at this
      rw [this]
      simp only
      rw [locate_unique n t i j a (by simpa [arrayAt] using h) hm (fun p b hb hmb => by
        have := hu (p.1 + 1, p.2) b (by simpa [arrayAt] using hb) hmb
        simp only [Prod.mk.injEq, Nat.add_right_cancel_iff] at this
        exact Prod.ext this.1 this.2)]
      rfl

theorem getElem_mergedTo (args : Args) (d : Doc ℚ) (cols : String → List (List ℚ)) (L : List (Nat × Arr ℚ)) (i : Nat) :
    (mergedTo args d cols L)[i]? = d[i]?.map fun s =>
      ⟨s.tag, ((L.filter fun x => home d x.1 = some i).reverse.map fun x => accOf args cols x.2) ++
        s.arrays.map fun a => if a.name ∈ L.map (·.2.name) then meanOf args cols a else parseArr a⟩ := by
  unfold mergedTo
  rw [List.getElem?_mapIdx]

theorem kept_name (args : Args) (cols : String → List (List ℚ)) (L : List (Option String)) (a : Arr ℚ) :
    (if a.name ∈ L then meanOf args cols a else parseArr a).name = a.name ∧ (if a.name ∈ L then meanOf args cols a else parseArr a).type = a.type := by
  unfold meanOf
  split_ifs <;> exact ⟨rfl, rfl⟩

/-- One more array. -/
theorem mergeName_step (args : Args) (hc : args.copies = true) (d : Doc ℚ) (hd : Ready d) (inputs : List (Doc ℚ)) (h0 : inputs ≠ [])
    (X : Doc ℚ → String → List ℚ) (w : String → Nat)
    (L : List (Nat × Arr ℚ)) (i : Nat) (a : Arr ℚ) (n : String) (R : List (Nat × Arr ℚ)) (hf : floats d = L ++ (i, a) :: R) (hn : a.name = some n)
    (hX : ∀ t ∈ inputs, Only t n (X t n) ∧ (X t n).length = w n) :
    let cols : String → List (List ℚ) := fun n => (List.range (w n)).map fun j => inputs.map fun t => (X t n).getD j 0
    mergeName args inputs a.name (mergedTo args d cols L) = .ok (mergedTo args d cols (L ++ [(i, a)])) := by
  intro cols
  have hmem : (i, a) ∈ floats d := by rw [hf]; simp
  obtain ⟨s, j, hs, hj, ht⟩ := mem_floats.1 hmem
  have hq : '\'' ∉ n.toList := by
    obtain ⟨n', e1, e2⟩ := hd.named _ hmem
    rw [hn] at e1
    cases e1
    exact e2
  have hnL : a.name ∉ L.map (·.2.name) := by
    have := hd.nodup
    rw [hf, List.map_append, List.map_cons, List.nodup_append] at this
    intro hc
    exact this.2.2 _ hc _ (by simp) rfl
  obtain ⟨k, hk⟩ := hd.home _ hmem
  -- the array is where it was, behind the accuracies
  let H : Nat → List (Arr Cell) := fun i => (L.filter fun x => home d x.1 = some i).reverse.map fun x => accOf args cols x.2
  have hHL : ∀ i' b, b ∈ H i' → Arr.matches n b = false := by
    intro i' b hb
    obtain ⟨x, hx, rfl⟩ := List.mem_map.1 hb
    have hxL : x ∈ L := (List.mem_filter.1 (List.mem_reverse.1 hx)).1
    obtain ⟨m, hm, -⟩ := hd.named x (by rw [hf]; simp [hxL])
    have hfr := hd.fresh _ hmem x (by rw [hf]; simp [hxL]) m hm
    simp only [hn, ne_eq, Option.some.injEq] at hfr
    have hne : m ++ "_vfc_accuracy" ≠ n := fun h => hfr h.symm
    simp [Arr.matches, accOf, shown, hm, hne]
  have hat : ∀ p : Nat × Nat, arrayAt (mergedTo args d cols L) p = d[p.1]?.bind fun s' =>
      (H p.1 ++ s'.arrays.map fun a => if a.name ∈ L.map (·.2.name) then meanOf args cols a else parseArr a)[p.2]? := by
    intro p
    unfold arrayAt
    rw [getElem_mergedTo]
    cases d[p.1]? <;> rfl
  have hhere : arrayAt (mergedTo args d cols L) (i, (H i).length + j) = some (parseArr a) := by
    rw [hat]
    simp only [hs, Option.bind_some]
    rw [List.getElem?_append_right (by omega)]
    simp [hj, hnL]
  have hloc : locate n (mergedTo args d cols L) = some (i, (H i).length + j) := by
    refine locate_unique n _ _ _ _ hhere (by simp [Arr.matches, parseArr, ht, hn]) ?_
    rintro ⟨i', j'⟩ b hb hm
    rw [hat] at hb
    simp only at hb
    cases hs' : d[i']? with
    | none => rw [hs'] at hb; simp at hb
    | some s' =>
      rw [hs', Option.bind_some] at hb
      by_cases hlt : j' < (H i').length
      · rw [List.getElem?_append_left hlt] at hb
        have := hHL i' b (List.mem_of_getElem? hb)
        rw [this] at hm
        cases hm
      · push Not at hlt
        rw [List.getElem?_append_right hlt, List.getElem?_map] at hb
        cases ha' : s'.arrays[j' - (H i').length]? with
        | none => rw [ha'] at hb; simp at hb
        | some a' =>
          rw [ha', Option.map_some] at hb
          cases hb
          simp only [Arr.matches, Bool.and_eq_true, beq_iff_eq] at hm
          rw [(kept_name args cols _ a').1, (kept_name args cols _ a').2] at hm
          obtain ⟨e1, e2⟩ := hd.same hs hj ht hs' ha' hm.1 (hn.trans hm.2.symm)
          subst e1
          refine Prod.ext rfl ?_
          simp only
          omega
  -- the numbers
  have hrows := rows_only n (fun t => X t n) inputs fun t h => (hX t h).1
  have hcols := columns_ok (fun t => X t n) inputs (w n) h0 fun t h => (hX t h).2
  -- the means
  let M' : Doc Cell := d.mapIdx fun i' s => ⟨s.tag, H i' ++ s.arrays.map fun b =>
    if b.name ∈ (L ++ [(i, a)]).map (·.2.name) then meanOf args cols b else parseArr b⟩
  have hsame : ∀ (i' j' : Nat) (s' : Section ℚ) (b : Arr ℚ), d[i']? = some s' → s'.arrays[j']? = some b → (i', j') ≠ (i, j) →
      (if b.name ∈ (L ++ [(i, a)]).map (·.2.name) then meanOf args cols b else parseArr b) =
        if b.name ∈ L.map (·.2.name) then meanOf args cols b else parseArr b := by
    intro i' j' s' b hs' hb hne
    by_cases h1 : b.name ∈ L.map (·.2.name)
    · rw [if_pos h1, if_pos (by rw [List.map_append]; exact List.mem_append_left _ h1)]
    · by_cases h2 : b.name = a.name
      · have ht' : b.type ≠ "Float32" := by
          intro ht'
          obtain ⟨e1, e2⟩ := hd.same hs hj ht hs' hb ht' h2.symm
          exact hne (by rw [e1, e2])
        simp [meanOf, ht']
      · rw [if_neg h1, if_neg]
        rw [List.map_append, List.mem_append]
        simp only [List.map_cons, List.map_nil, List.mem_singleton, not_or]
        exact ⟨h1, h2⟩
  have hM : (if args.mean = true then (mergedTo args d cols L).modify i (fun s => { s with arrays := s.arrays.modify ((H i).length + j) (fun a =>
      setData a ((cols n).map fun c => Cell.num (mean c))) }) else mergedTo args d cols L) = M' := by
    by_cases hmean : args.mean = true
    · rw [if_pos hmean]
      refine List.ext_getElem? fun i' => ?_
      rw [List.getElem?_modify, getElem_mergedTo, List.getElem?_mapIdx]
      cases hs' : d[i']? with
      | none => rfl
      | some s' =>
        simp only [Option.map_some, Option.map_eq_map]
        by_cases hi : i = i'
        · subst hi
          rw [hs] at hs'
          cases hs'
          rw [if_pos rfl]
          simp only [Option.some.injEq, Section.mk.injEq, true_and]
          refine List.ext_getElem? fun j' => ?_
          rw [List.getElem?_modify]
          by_cases hlt : j' < (H i).length
          · rw [List.getElem?_append_left hlt, List.getElem?_append_left hlt]
            have : ¬ ((H i).length + j = j') := by omega
            simp [this]
          · push Not at hlt
            rw [List.getElem?_append_right hlt, List.getElem?_append_right hlt, List.getElem?_map, List.getElem?_map]
            cases ha' : s.arrays[j' - (H i).length]? with
            | none => rfl
            | some b =>
              simp only [Option.map_some, Option.map_eq_map, Option.some.injEq]
              by_cases hjj : (H i).length + j = j'
              · rw [if_pos hjj]
                have : j' - (H i).length = j := by omega
                rw [this, hj] at ha'
                cases ha'
                rw [if_neg hnL, if_pos (by simp)]
                simp [meanOf, hmean, ht, setData, parseArr, shown, hn]
              · rw [if_neg hjj, hsame i _ s b hs ha' (by simp only [ne_eq, Prod.mk.injEq, true_and]; omega)]
        · rw [if_neg hi]
          simp only [Option.some.injEq, Section.mk.injEq, true_and]
          congr 1
          refine List.map_congr_left fun b hb => ?_
          obtain ⟨j', lj, rfl⟩ := List.mem_iff_getElem.1 hb
          exact (hsame i' j' s' _ hs' (by simp [lj]) (by simp only [ne_eq, Prod.mk.injEq, not_and]; intro h; exact absurd h.symm hi)).symm
    · rw [if_neg hmean]
      unfold mergedTo
      congr 1
      funext i' s'
      congr 2
      refine List.map_congr_left fun b _ => ?_
      simp [meanOf, hmean]
  have htar : target M' i = some k := by
    have e1 : M'[i]? = some ⟨s.tag, H i ++ s.arrays.map fun b => if b.name ∈ (L ++ [(i, a)]).map (·.2.name) then meanOf args cols b else parseArr b⟩ := by
      rw [List.getElem?_mapIdx, hs]
      rfl
    have e2 : M'.findIdx? (·.tag == "PointData") = d.findIdx? (·.tag == "PointData") := by
      have h1 : M'.map (·.tag) = d.map (·.tag) := by
        refine List.ext_getElem? fun i' => ?_
        rw [List.getElem?_map, List.getElem?_map, List.getElem?_mapIdx]
        cases d[i']? <;> rfl
      have h2 : ∀ {α : Type} (l : Doc α), l.findIdx? (·.tag == "PointData") = (l.map (·.tag)).findIdx? (· == "PointData") := by
        intro α l
        rw [List.findIdx?_map]
        rfl
      rw [h2, h2, h1]
    unfold target
    rw [e1]
    simp only
    have hk' := hk
    simp only [home, hs, Option.map_some, Option.some.injEq] at hk'
    by_cases hp : s.tag = "Points"
    · rw [if_neg (by simp [hp]), e2]
      rw [if_pos hp] at hk'
      exact hk'
    · rw [if_pos hp]
      rw [if_neg hp] at hk'
      exact hk'
  have hfin : M'.modify k (fun s => { s with arrays := accOf args cols a :: s.arrays }) = mergedTo args d cols (L ++ [(i, a)]) := by
    refine List.ext_getElem? fun i' => ?_
    rw [List.getElem?_modify, getElem_mergedTo, List.getElem?_mapIdx]
    cases hs' : d[i']? with
    | none => rfl
    | some s' =>
      simp only [Option.map_some, Option.map_eq_map, Option.some.injEq]
      by_cases hkk : k = i'
      · subst hkk
        rw [if_pos rfl, List.filter_append]
        have : [(i, a)].filter (fun x => decide (home d x.1 = some k)) = [(i, a)] := by simp [show home d i = some k from hk]
        rw [this, List.reverse_append]
        rfl
      · rw [if_neg hkk, List.filter_append]
        have : [(i, a)].filter (fun x => decide (home d x.1 = some i')) = [] := by simp [show home d i = some k from hk, hkk]
        rw [this, List.append_nil]
  unfold mergeName
  simp only [hn, shown, Option.getD_some]
  rw [if_neg hq, hrows, Outcome.bind_ok, hcols, Outcome.bind_ok]
  simp only [hloc, hhere]
  rw [if_pos hc]
  have hM2 := hM
  simp only [cols] at hM2 htar hfin ⊢
  simp only [hM2, htar]
  rw [← hfin]
  simp [accOf, shown, hn, parseArr]

theorem mergeNames_steps (args : Args) (hc : args.copies = true) (d : Doc ℚ) (hd : Ready d) (inputs : List (Doc ℚ)) (h0 : inputs ≠ [])
    (X : Doc ℚ → String → List ℚ) (w : String → Nat)
    (hX : ∀ t ∈ inputs, ∀ x ∈ floats d, Only t (shown x.2.name) (X t (shown x.2.name)) ∧ (X t (shown x.2.name)).length = w (shown x.2.name)) :
    let cols : String → List (List ℚ) := fun n => (List.range (w n)).map fun j => inputs.map fun t => (X t n).getD j 0
    ∀ (R L : List (Nat × Arr ℚ)), floats d = L ++ R → mergeNames args inputs (R.map (·.2.name)) (mergedTo args d cols L) = .ok (mergedTo args d cols (L ++ R))
  | [], L, _ => by simp [mergeNames]
  | (i, a) :: R, L, hf => by
    have hmem : (i, a) ∈ floats d := by rw [hf]; simp
    obtain ⟨n, hn, -⟩ := hd.named _ hmem
    have hs : shown a.name = n := by simp [shown, show a.name = some n from hn]
    rw [List.map_cons, mergeNames, mergeName_step args hc d hd inputs h0 X w L i a n R hf hn (fun t ht => by
      have := hX t ht _ hmem
      rw [hs] at this
      exact this), Outcome.bind_ok,
      mergeNames_steps args hc d hd inputs h0 X w hX R (L ++ [(i, a)]) (by rw [hf]; simp)]
    simp

/-- **C105, files.**  Where elements can be copied, a file that is `Ready`, and traces that all have its arrays of type `Float32`, once and with as many
numbers: the output has the sections of the file, each with the accuracies of its arrays, the last first, before the arrays, unchanged or with their
means; the accuracies of coordinates are in the first `PointData`. -/
theorem C105_merge_partial (args : Args) (hc : args.copies = true) (d : Doc ℚ) (hd : Ready d) (inputs : List (Doc ℚ)) (h0 : inputs ≠ [])
    (X : Doc ℚ → String → List ℚ) (w : String → Nat)
    (hX : ∀ t ∈ inputs, ∀ x ∈ floats d, Only t (shown x.2.name) (X t (shown x.2.name)) ∧ (X t (shown x.2.name)).length = w (shown x.2.name)) :
    mergeVtu args d inputs = .ok (merged args d fun n => (List.range (w n)).map fun j => inputs.map fun t => (X t n).getD j 0) := by
  have h := mergeNames_steps args hc d hd inputs h0 X w hX (floats d) [] rfl
  unfold mergeVtu
  rw [names_eq]
  have e1 : ∀ cols, mergedTo args d cols [] = parsed d := by
    intro cols
    refine List.ext_getElem? fun i => ?_
    rw [getElem_mergedTo, parsed_eq, List.getElem?_map]
    cases d[i]? <;> simp
  rw [e1] at h
  rw [h, List.nil_append]
  congr 1
  refine List.ext_getElem? fun i => ?_
  unfold merged
  rw [getElem_mergedTo, List.getElem?_mapIdx]
  cases hs : d[i]? with
  | none => rfl
  | some s =>
    simp only [Option.map_some, Option.some.injEq, Section.mk.injEq, true_and]
    congr 1
    refine List.map_congr_left fun a ha => ?_
    split_ifs with hm
    · rfl
    · obtain ⟨j, lj, rfl⟩ := List.mem_iff_getElem.1 ha
      have : ¬ (s.arrays[j].type = "Float32") := by
        intro ht
        exact hm (List.mem_map.2 ⟨(i, s.arrays[j]), mem_floats.2 ⟨s, j, hs, by simp [lj], ht⟩, rfl⟩)
      simp [meanOf, this]

/-! ## Where it fails -/

/-- **C105, copies.**  False of Python 3: elements of the C implementation of `xml.etree.ElementTree` have no method `copy`, and no file with an array of
type `Float32` is ever merged, whatever the traces. -/
theorem C105_copy_wrong (args : Args) (hc : args.copies = false) (d : Doc ℚ) (inputs : List (Doc ℚ)) (h : names d ≠ []) :
    ∀ out, mergeVtu args d inputs ≠ .ok out := by
  intro out
  unfold mergeVtu
  cases hn : names d with
  | nil => exact absurd hn h
  | cons n ns =>
    have : ∀ o, mergeName args inputs n (parsed d) ≠ .ok o := by
      intro o
      unfold mergeName
      simp only [hc, Bool.false_eq_true, if_false]
      by_cases hq : '\'' ∈ (shown n).toList
      · rw [if_pos hq]; simp
      rw [if_neg hq]
      cases rows (shown n) inputs with
      | exit => simp
      | ub => simp
      | ok rs =>
        rw [Outcome.bind_ok]
        cases columns rs with
        | exit => simp
        | ub => simp
        | ok cs =>
          rw [Outcome.bind_ok]
          cases locate (shown n) (parsed d) with
          | none => simp
          | some p =>
            simp only
            cases arrayAt (parsed d) (p.1, p.2) <;> simp
    unfold mergeNames
    cases hm : mergeName args inputs n (parsed d) with
    | ok o => exact absurd hm (this o)
    | exit => simp
    | ub => simp

/-- **C105, double precision.**  False: arrays of doubles get no accuracy; a file that has no others stays as it is, in every mode, with `--mean` too. -/
theorem C105_double_wrong (args : Args) (d : Doc ℚ) (inputs : List (Doc ℚ)) (h : ∀ s ∈ d, ∀ a ∈ s.arrays, a.type = "Float64") :
    mergeVtu args d inputs = .ok (parsed d) := by
  have : names d = [] := by
    unfold names
    rw [List.flatMap_eq_nil_iff]
    intro s hs
    rw [List.map_eq_nil_iff, List.filter_eq_nil_iff]
    intro a ha
    simp [h s hs a ha]
  unfold mergeVtu
  rw [this]
  rfl

/-- **C105, unnamed arrays.**  An array without a name is taken for one called `None`, and the merge fails. -/
theorem C105_unnamed_wrong (args : Args) (d : Doc ℚ) (inputs : List (Doc ℚ)) (h : none ∈ names d) : ∀ out, mergeVtu args d inputs ≠ .ok out := by
  have key : ∀ ns : List (Option String), none ∈ ns → ∀ (o out : Doc Cell), mergeNames args inputs ns o ≠ .ok out := by
    intro ns
    induction ns with
    | nil => intro h; simp at h
    | cons n ns ih =>
      intro hn o out
      unfold mergeNames
      rcases List.mem_cons.1 hn with rfl | hn
      · have : ∀ o', mergeName args inputs none o ≠ .ok o' := by
          intro o'
          unfold mergeName
          simp only
          by_cases hq : '\'' ∈ (shown none).toList
          · rw [if_pos hq]; simp
          rw [if_neg hq]
          cases rows (shown none) inputs with
          | exit => simp
          | ub => simp
          | ok rs =>
            rw [Outcome.bind_ok]
            cases columns rs with
            | exit => simp
            | ub => simp
            | ok cs =>
              rw [Outcome.bind_ok]
              cases locate (shown none) o with
              | none => simp
              | some p =>
                simp only
                cases arrayAt o (p.1, p.2) with
                | none => simp
                | some a =>
                  cases args.copies <;> simp
        cases hm : mergeName args inputs none o with
        | ok o' => exact absurd hm (this o')
        | exit => simp
        | ub => simp
      · cases hm : mergeName args inputs n o with
        | ok o' => rw [Outcome.bind_ok]; exact ih hn o' out
        | exit => simp
        | ub => simp
  exact fun out => key _ h _ out

theorem arrayAt_mem {α : Type} {d : Doc α} {p : Nat × Nat} {a : Arr α} (h : arrayAt d p = some a) : ∃ s ∈ d, a ∈ s.arrays := by
  unfold arrayAt at h
  cases hs : d[p.1]? with
  | none => rw [hs] at h; cases h
  | some s =>
    rw [hs] at h
    exact ⟨s, List.mem_of_getElem? hs, List.mem_of_getElem? h⟩

theorem locate_matches {α : Type} (n : String) : ∀ (d : Doc α) (p : Nat × Nat) (a : Arr α), locate n d = some p → arrayAt d p = some a →
    Arr.matches n a = true
  | [], _, _, h, _ => by cases h
  | s :: t, p, a, h, ha => by
    unfold locate at h
    cases hf : s.arrays.findIdx? (Arr.matches n) with
    | some j =>
      rw [hf] at h
      obtain rfl := Option.some.inj h
      obtain ⟨hj, hm, _⟩ := List.findIdx?_eq_some_iff_getElem.1 hf
      have : s.arrays[j]? = some a := ha
      rw [List.getElem?_eq_getElem hj] at this
      obtain rfl := Option.some.inj this
      exact hm
    | none =>
      rw [hf] at h
      obtain ⟨q, hq, rfl⟩ := Option.map_eq_some_iff.1 h
      exact locate_matches n t q a hq ha

/-- **C105, missing arrays.**  A merge succeeds only if every trace has, for each array of the output, one of the same name with
numbers. -/
theorem C105_missing (args : Args) (d : Doc ℚ) (inputs : List (Doc ℚ)) (out : Doc Cell) (h : mergeVtu args d inputs = .ok out) (n : String)
    (hn : some n ∈ names d) (t : Doc ℚ) (ht : t ∈ inputs) :
    ∃ s ∈ t, ∃ a ∈ s.arrays, a.type = "Float32" ∧ a.name = some n ∧ a.data.isSome := by
  have hrow : ∀ xs, row n t = .ok xs → ∃ s ∈ t, ∃ a ∈ s.arrays, a.type = "Float32" ∧ a.name = some n ∧ a.data.isSome := by
    intro xs hx
    unfold row at hx
    cases hl : locate n t with
    | none => rw [hl] at hx; cases hx
    | some p =>
      rw [hl, Option.bind_some] at hx
      cases ha : arrayAt t p with
      | none => rw [ha] at hx; cases hx
      | some a =>
        rw [ha] at hx
        obtain ⟨s, hs, has⟩ := arrayAt_mem ha
        have hm := locate_matches n t p a hl ha
        unfold Arr.matches at hm
        rw [Bool.and_eq_true, beq_iff_eq, beq_iff_eq] at hm
        refine ⟨s, hs, a, has, hm.1, hm.2, ?_⟩
        cases hd : a.data with
        | none => simp only [hd] at hx; cases hx
        | some ys => rfl
  have hrows : ∀ (ds : List (Doc ℚ)) (rs : List (List ℚ)), rows n ds = .ok rs → t ∈ ds → ∃ xs, row n t = .ok xs := by
    intro ds
    induction ds with
    | nil => intro _ _ h; simp at h
    | cons e ds ih =>
      intro rs hr hm
      unfold rows at hr
      cases h1 : row n e with
      | exit => rw [h1] at hr; cases hr
      | ub => rw [h1] at hr; cases hr
      | ok x =>
        rw [h1, Outcome.bind_ok] at hr
        rcases List.mem_cons.1 hm with rfl | hm
        · exact ⟨x, h1⟩
        · cases h2 : rows n ds with
          | exit => rw [h2] at hr; cases hr
          | ub => rw [h2] at hr; cases hr
          | ok ys => exact ih ys h2 hm
  have key : ∀ (ns : List (Option String)) (o : Doc Cell), some n ∈ ns → mergeNames args inputs ns o = .ok out → ∃ rs, rows n inputs = .ok rs := by
    intro ns
    induction ns with
    | nil => intro _ h; simp at h
    | cons m ns ih =>
      intro o hm ho
      unfold mergeNames at ho
      cases h1 : mergeName args inputs m o with
      | exit => rw [h1] at ho; cases ho
      | ub => rw [h1] at ho; cases ho
      | ok o' =>
        rw [h1, Outcome.bind_ok] at ho
        rcases List.mem_cons.1 hm with rfl | hm
        · unfold mergeName at h1
          simp only [shown, Option.getD_some] at h1
          by_cases hq : '\'' ∈ n.toList
          · rw [if_pos hq] at h1; cases h1
          rw [if_neg hq] at h1
          cases h2 : rows n inputs with
          | exit => rw [h2] at h1; cases h1
          | ub => rw [h2] at h1; cases h1
          | ok rs => exact ⟨rs, rfl⟩
        · exact ih o' hm ho
  obtain ⟨rs, hrs⟩ := key _ _ hn h
  obtain ⟨xs, hxs⟩ := hrows inputs rs hrs ht
  exact hrow xs hxs

example : mergeVtu {} [⟨"PointData", [⟨"Float32", some "v", [], some [1]⟩]⟩]
    [[⟨"PointData", [⟨"Float32", some "v", [], some []⟩]⟩], [⟨"PointData", [⟨"Float32", some "v", [], none⟩]⟩]] = .exit := by decide +kernel

/-! ## Directories -/

theorem mergeFiles_dir (args : Args) (first : Trace) (traces : List Trace) : ∀ (fs : List String) (o : List (String × Doc Cell)),
    ∃ st o', mergeFiles args first traces fs o = (st, .dir o')
  | [], o => ⟨_, _, rfl⟩
  | f :: fs, o => by
    unfold mergeFiles
    cases first.lookup f with
    | none => exact ⟨_, _, rfl⟩
    | some d =>
      cases gather f traces with
      | exit => exact ⟨_, _, rfl⟩
      | ub => exact ⟨_, _, rfl⟩
      | ok ds =>
        simp only
        cases mergeVtu args d ds with
        | exit => exact ⟨_, _, rfl⟩
        | ub => exact ⟨_, _, rfl⟩
        | ok o' => exact mergeFiles_dir args first traces fs _

/-- **C105, again.**  False: however a run without `-r` on traces ends, with an exception too, it leaves an output directory behind, and every further run
refuses to do anything. -/
theorem C105_again_wrong (args args' : Args) (ref : Ref) (traces traces' : List Trace) (h1 : traces ≠ []) (h2 : traces' ≠ []) :
    ∃ files, (postprocess args .none traces .nothing).2 = .dir files ∧
      postprocess args' ref traces' (postprocess args .none traces .nothing).2 = (.error 3, .dir files) := by
  cases traces with
  | nil => exact absurd rfl h1
  | cons t ts =>
    cases traces' with
    | nil => exact absurd rfl h2
    | cons t' ts' =>
      obtain ⟨st, o, ho⟩ := mergeFiles_dir args t (t :: ts) (vtus t) (t.map fun p => (p.1, parsed p.2))
      have : postprocess args .none (t :: ts) .nothing = (st, .dir o) := ho
      rw [this]
      exact ⟨o, rfl, rfl⟩

/-- With the C implementation of elements: the first file stays a copy of the first trace, and the output stays. -/
theorem C105_first_wrong (args : Args) (hc : args.copies = false) (first : Trace) (ts : List Trace) (f : String) (fs : List String) (d : Doc ℚ)
    (hv : vtus first = f :: fs) (hf : first.lookup f = some d) (hn : names d ≠ []) :
    postprocess args .none (first :: ts) .nothing = (.exception, .dir (first.map fun p => (p.1, parsed p.2))) := by
  unfold postprocess
  simp only [hv]
  unfold mergeFiles
  rw [hf]
  cases hg : gather f (first :: ts) with
  | exit => rfl
  | ub => rfl
  | ok ds =>
    simp only
    cases hm : mergeVtu args d ds with
    | ok o => exact absurd hm (C105_copy_wrong args hc d ds hn o)
    | exit => rfl
    | ub => rfl

/-- **C105, `-r`.**  False: with a reference nothing is ever merged.  A directory cannot be copied, and below a file nothing can be opened. -/
theorem C105_reference_wrong (args : Args) (ref : Ref) (h : ref ≠ .none) (first : Trace) (ts : List Trace) (hv : vtus first ≠ []) :
    (postprocess args ref (first :: ts) .nothing).1 = .exception ∧ ∀ fs, (postprocess args ref (first :: ts) .nothing).2 ≠ .dir fs := by
  unfold postprocess
  cases ref with
  | none => exact absurd rfl h
  | file => simp [hv]
  | dir => simp

/-- **C105, all files.**  If every `.vtu` file of the first trace is in all traces and can be merged, the tool ends well, and each of them is
what the merge gives, the other files copies. -/
theorem C105_directory (args : Args) (first : Trace) (ts : List Trace)
    (out : String → Doc Cell)
    (h : ∀ f ∈ vtus first, ∃ d ds, first.lookup f = some d ∧ gather f (first :: ts) = .ok ds ∧ mergeVtu args d ds = .ok (out f)) :
    postprocess args .none (first :: ts) .nothing =
      (.done, .dir (first.map fun p => (p.1, if isVtu p.1 then out p.1 else parsed p.2))) := by
  have key : ∀ (fs : List String) (g : String × Doc ℚ → Doc Cell), (∀ f ∈ fs, f ∈ vtus first) →
      mergeFiles args first (first :: ts) fs (first.map fun p => (p.1, g p)) =
        (.done, .dir (first.map fun p => (p.1, if p.1 ∈ fs then out p.1 else g p))) := by
    intro fs
    induction fs with
    | nil => intro g _; simp [mergeFiles]
    | cons f fs ih =>
      intro g hfs
      obtain ⟨d, ds, h1, h2, h3⟩ := h f (hfs f (by simp))
      unfold mergeFiles
      rw [h1, h2]
      simp only [h3]
      have : replace f (out f) (first.map fun p => (p.1, g p)) = first.map fun p => (p.1, if p.1 = f then out p.1 else g p) := by
        unfold replace
        rw [List.map_map]
        refine List.map_congr_left fun p _ => ?_
        simp only [Function.comp]
        split_ifs with e
        · rw [e]
        · rfl
      rw [this, ih (fun p => if p.1 = f then out p.1 else g p) fun f hf => hfs f (by simp [hf])]
      congr 2
      refine List.map_congr_left fun p _ => ?_
      by_cases e1 : p.1 ∈ fs
      · simp [e1]
      · by_cases e2 : p.1 = f <;> simp [e1, e2]
  unfold postprocess
  simp only
  rw [key (vtus first) (fun p => parsed p.2) fun _ h => h]
  congr 2
  refine List.map_congr_left fun p hp => ?_
  have : p.1 ∈ vtus first ↔ isVtu p.1 = true := by
    unfold vtus
    rw [List.mem_filter]
    exact ⟨fun h => h.2, fun h => ⟨List.mem_map.2 ⟨p, hp, rfl⟩, h⟩⟩
  simp only [this]

/-! ## A file -/

/-- Pressure at two points, and the coordinates, in single precision; velocities in double precision. -/
def sample (p x : List ℚ) : Doc ℚ :=
  [⟨"PointData", [⟨"Float32", some "pressure", [("format", "ascii")], some p⟩, ⟨"Float64", some "velocity", [], some [1]⟩]⟩, ⟨"CellData", []⟩,
   ⟨"Points", [⟨"Float32", some "Points", [("NumberOfComponents", "3")], some x⟩]⟩]

example : Ready (sample [1, 2] [0, 0, 0]) where
  named := by
    have : floats (sample [1, 2] [0, 0, 0]) = [(0, ⟨"Float32", some "pressure", [("format", "ascii")], some [1, 2]⟩),
      (2, ⟨"Float32", some "Points", [("NumberOfComponents", "3")], some [0, 0, 0]⟩)] := by decide +kernel
    rw [this]
    intro x hx
    simp only [List.mem_cons, List.not_mem_nil, or_false] at hx
    rcases hx with rfl | rfl
    · exact ⟨_, rfl, by decide⟩
    · exact ⟨_, rfl, by decide⟩
  nodup := by decide +kernel
  fresh := by
    have : floats (sample [1, 2] [0, 0, 0]) = [(0, ⟨"Float32", some "pressure", [("format", "ascii")], some [1, 2]⟩),
      (2, ⟨"Float32", some "Points", [("NumberOfComponents", "3")], some [0, 0, 0]⟩)] := by decide +kernel
    rw [this]
    intro x hx y hy n hn
    simp only [List.mem_cons, List.not_mem_nil, or_false] at hx hy
    rcases hx with rfl | rfl <;> rcases hy with rfl | rfl <;> cases hn <;> decide
  home := by
    have : floats (sample [1, 2] [0, 0, 0]) = [(0, ⟨"Float32", some "pressure", [("format", "ascii")], some [1, 2]⟩),
      (2, ⟨"Float32", some "Points", [("NumberOfComponents", "3")], some [0, 0, 0]⟩)] := by decide +kernel
    rw [this]
    intro x hx
    simp only [List.mem_cons, List.not_mem_nil, or_false] at hx
    rcases hx with rfl | rfl
    · exact ⟨0, by decide +kernel⟩
    · exact ⟨0, by decide +kernel⟩

/-- The accuracy of the pressure is about 3 digits at the first point and 17 at the second; that of the coordinates comes first. -/
example : mergeVtu { mean := true } (sample [1000, 2] [0, 0, -1]) [sample [1000, 2] [0, 0, -1], sample [1001, 2] [1, 0, -2]] =
    .ok [⟨"PointData", [⟨"Float32", some "Points_vfc_accuracy", [("NumberOfComponents", "3")], some [.digits 1, .num 0, .num 0]⟩,
        ⟨"Float32", some "pressure_vfc_accuracy", [("format", "ascii")], some [.digits (1 / 4004001), .num 17]⟩,
        ⟨"Float32", some "pressure", [("format", "ascii")], some [.num (2001 / 2), .num 2]⟩, ⟨"Float64", some "velocity", [], some [.num 1]⟩]⟩,
      ⟨"CellData", []⟩,
      ⟨"Points", [⟨"Float32", some "Points", [("NumberOfComponents", "3")], some [.num (1 / 2), .num 0, .num (-3 / 2)]⟩]⟩] := by
  decide +kernel

/-- **C105, two arrays with one name.**  False: the second gets no accuracy, the first gets its own twice. -/
theorem C105_duplicate_wrong : mergeVtu {} [⟨"PointData", [⟨"Float32", some "v", [], some [1]⟩]⟩, ⟨"CellData", [⟨"Float32", some "v", [], some [5]⟩]⟩]
    [[⟨"PointData", [⟨"Float32", some "v", [], some [1]⟩]⟩, ⟨"CellData", [⟨"Float32", some "v", [], some [5]⟩]⟩],
     [⟨"PointData", [⟨"Float32", some "v", [], some [1]⟩]⟩, ⟨"CellData", [⟨"Float32", some "v", [], some [900]⟩]⟩]] =
    .ok [⟨"PointData", [⟨"Float32", some "v_vfc_accuracy", [], some [.num 17]⟩, ⟨"Float32", some "v_vfc_accuracy", [], some [.num 17]⟩,
        ⟨"Float32", some "v", [], some [.num 1]⟩]⟩, ⟨"CellData", [⟨"Float32", some "v", [], some [.num 5]⟩]⟩] := by
  decide +kernel

/-- **C105, coordinates.**  False: a file with coordinates in single precision and no `PointData` is not merged. -/
theorem C105_points_wrong (args : Args) : mergeVtu args [⟨"Points", [⟨"Float32", some "Points", [], some [1]⟩]⟩]
    [[⟨"Points", [⟨"Float32", some "Points", [], some [1]⟩]⟩]] = .exit := by
  obtain ⟨s, m, c⟩ := args
  cases s <;> cases m <;> cases c <;> decide +kernel

/-- The whole directory, one file and a text of another kind; and the same with the C implementation of elements. -/
example : (postprocess {} .none [[("a.vtu", sample [1] [2]), ("log", [])], [("a.vtu", sample [1] [2]), ("log", [])]] .nothing).1 = .done ∧
    (postprocess { copies := false } .none [[("a.vtu", sample [1] [2]), ("log", [])], [("a.vtu", sample [1] [2]), ("log", [])]] .nothing).1 = .exception ∧
    (postprocess {} .none [[("a.vtu", sample [1] [2])], []] .nothing).1 = .exception ∧ (postprocess {} .none [] .nothing).1 = .error 2 ∧
    (postprocess {} .file [[("a.vtu", sample [1] [2])]] .nothing).1 = .exception := by
  decide +kernel

end Verif.Vtk
