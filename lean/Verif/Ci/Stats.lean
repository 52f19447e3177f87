import Verif.Base.Outcome
import Verif.Ci.Report
import Mathlib.Data.List.Sort
import Mathlib.Data.Rat.Floor
import Mathlib.Analysis.SpecialFunctions.Log.Base
import Mathlib.Analysis.Real.Sqrt

/-!
# The statistics of `vfc_ci`

/repo/src/tools/ci/test_data_processing.py: the columns computed from the samples of a probe, for non-deterministic backends.

Simplifications: numpy is taken to compute exactly, on rational numbers; the standard deviation, which need not be rational, is
kept as its square; the statistics of scipy (the p-value of the Shapiro-Wilk test) and of the package `significantdigits` are
functions that are given; the thresholds 0.05 and 53 are exact; s10, the same number in another basis, is left out.
-/

namespace Verif.Ci.Stats
open Verif Verif.Ci.Report

/-- What is imported: `scipy.stats.shapiro`, and the methods `General` and `CNH` of `sd.significant_digits`,
test_data_processing.py:21-23. -/
structure Lib where
  shapiro : List ℚ → ℚ
  general : List ℚ → ℚ → ℝ
  cnh : List ℚ → ℚ → ℝ

/-- The samples in increasing order. -/
def sorted (xs : List ℚ) : List ℚ := xs.insertionSort (· ≤ ·)

/-- The entry of a list, or the last one. -/
def entry (a : List ℚ) (i : Nat) : ℚ := a.getD (min i (a.length - 1)) 0

/-- `np.quantile(values, q)`, test_data_processing.py:113-115: numpy's default method, which interpolates between the two
samples around index `(n - 1) q`. -/
def quantile (q : ℚ) (xs : List ℚ) : ℚ :=
  let a := sorted xs
  let v := ((a.length : ℚ) - 1) * q
  let i := ⌊v⌋.toNat
  entry a i + (entry a (i + 1) - entry a i) * (v - i)

/-- A row of the table, test_data_processing.py:107-133, 150, 154, 159. -/
structure Row where
  mu : ℚ
  /-- The square of `sigma`. -/
  sigma2 : ℚ
  pvalue : ℚ
  min : ℚ
  quantile25 : ℚ
  quantile50 : ℚ
  quantile75 : ℚ
  max : ℚ
  check : Bool
  s2 : ℝ
  lower : ℝ
  nsamples : Nat

/-- The check, test_data_processing.py:120-133.  `sigma < abs(threshold)` is the comparison of the squares; dividing by a `mu` of
zero gives an infinity or a NaN, which is not below the threshold. -/
def checked (mode : Str) (mu sigma2 threshold : ℚ) : Bool :=
  if mode = "absolute".toList then decide (sigma2 < threshold ^ 2)
  else if mode = "relative".toList then decide (mu ≠ 0 ∧ sigma2 / mu ^ 2 < threshold ^ 2)
  else true

/-- `significant_digits`, test_data_processing.py:35-66.  Of a `sigma` of zero `-np.log2` is the positive infinity. -/
noncomputable def significant (lib : Lib) (xs : List ℚ) (mu sigma2 pvalue : ℚ) : ℝ :=
  if mu = 0 then 53
  else if pvalue < 1 / 20 then lib.general xs mu
  else if sigma2 = 0 then 53
  else Min.min (-Real.logb 2 |Real.sqrt (sigma2 : ℝ) / (mu : ℝ)|) 53

/-- `significant_digits_lower_bound`, test_data_processing.py:69-97. -/
noncomputable def lowerBound (lib : Lib) (xs : List ℚ) (mu pvalue : ℚ) (s2 : ℝ) : ℝ :=
  if pvalue < 1 / 20 then s2
  else if mu = 0 then 53
  else lib.cnh xs mu

/-- A row, test_data_processing.py:100-135 and 149-159.  Shapiro-Wilk raises on fewer than three samples (:109). -/
noncomputable def row (lib : Lib) (mode : Str) (threshold : ℚ) (xs : List ℚ) : Outcome Row :=
  if xs.length < 3 then .exit
  else
    let mu := mean xs
    let sigma2 := var xs
    let p := lib.shapiro xs
    let s2 := significant lib xs mu sigma2 p
    .ok
      { mu := mu
        sigma2 := sigma2
        pvalue := p
        min := (sorted xs).headD 0
        quantile25 := quantile (1 / 4) xs
        quantile50 := quantile (1 / 2) xs
        quantile75 := quantile (3 / 4) xs
        max := (sorted xs).getLastD 0
        check := checked mode mu sigma2 threshold
        s2 := s2
        lower := lowerBound lib xs mu p s2
        nsamples := xs.length }

/-- `data_processing`, test_data_processing.py:138-161: all groups, each with its mode and threshold. -/
noncomputable def table (lib : Lib) : List (Str × ℚ × List ℚ) → Outcome (List Row)
  | [] => .ok []
  | (mode, t, xs) :: gs => row lib mode t xs >>= fun r => table lib gs >>= fun rs => .ok (r :: rs)

end Verif.Ci.Stats
