import Verif.Ddtool.Config
import Verif.Ddtool.DichoProps

/-!
# Tables of numbers of samples and options (C45, C55)
-/

namespace Verif.Ddtool

theorem div_pow_succ (n i : Nat) : n / 2 ^ (i + 1) = n / 2 ^ i / 2 := by
  rw [Nat.pow_succ, Nat.div_div_eq_div_mul]

/-- C45: for every number of samples at least 1 the exponential table starts at 1, ends at
that number and is strictly increasing; each entry is at most twice the previous one plus
one.  Missing: at most twice, which is false (`C45_doubling_wrong`). -/
theorem C45_exponential_partial (n : Nat) (hn : 1 ≤ n) :
    ∃ l, exponentialRange n = .ok l ∧ l.head? = some 1 ∧ l.getLast? = some n ∧
      l.Pairwise (· < ·) ∧
      ∀ i a b, l[i]? = some a → l[i + 1]? = some b → a < b ∧ b ≤ 2 * a + 1 := by
  have hpow : 2 ^ Nat.log 2 n ≤ n := Nat.pow_log_le_self 2 (by omega)
  have hlt : n < 2 ^ (Nat.log 2 n + 1) := Nat.lt_pow_succ_log_self (by omega) n
  have hpos : ∀ i, i ≤ Nat.log 2 n → 1 ≤ n / 2 ^ i := by
    intro i hi
    rw [Nat.le_div_iff_mul_le (Nat.two_pow_pos i), Nat.one_mul]
    exact Nat.le_trans (Nat.pow_le_pow_right (by omega) hi) hpow
  have hdec : ∀ i j, i < j → j ≤ Nat.log 2 n → n / 2 ^ j < n / 2 ^ i := by
    intro i j hij hj
    have h1 : n / 2 ^ j ≤ n / 2 ^ (i + 1) :=
      Nat.div_le_div_left (Nat.pow_le_pow_right (by omega) hij) (Nat.two_pow_pos _)
    have h2 := hpos i (by omega)
    rw [div_pow_succ] at h1
    omega
  refine ⟨_, by rw [exponentialRange, if_neg (by omega)], ?_, ?_, ?_, ?_⟩
  · rw [List.head?_reverse, Nat.add_comm 1, List.range_succ, List.map_append]
    simp only [List.map_cons, List.map_nil, List.getLast?_append, List.getLast?_singleton,
      Option.or, Option.some.injEq]
    have := hpos (Nat.log 2 n) (Nat.le_refl _)
    have : n / 2 ^ Nat.log 2 n < 2 := by
      rw [Nat.div_lt_iff_lt_mul (Nat.two_pow_pos _)]
      rw [Nat.pow_succ] at hlt; omega
    omega
  · rw [List.getLast?_reverse, List.range_eq_range', Nat.add_comm 1, List.range'_succ]
    simp
  · rw [List.pairwise_reverse, List.pairwise_map]
    refine List.Pairwise.imp_of_mem ?_ List.pairwise_lt_range
    intro a b ha hb hab
    rw [List.mem_range] at hb
    exact hdec a b hab (by omega)
  · intro i a b ha hb
    generalize hL : Nat.log 2 n = L at *
    have hlen : ((List.range (1 + L)).map fun i => n / 2 ^ i).length = L + 1 := by simp; omega
    have hi : i + 1 < L + 1 := by
      by_contra hge
      rw [List.getElem?_eq_none (by rw [List.length_reverse, hlen]; omega)] at hb
      cases hb
    rw [List.getElem?_reverse (by rw [hlen]; omega), hlen] at ha hb
    rw [List.getElem?_map, List.getElem?_range (by omega)] at ha hb
    simp only [Option.map_some, Option.some.injEq] at ha hb
    have e1 : L + 1 - 1 - i = (L + 1 - 1 - (i + 1)) + 1 := by omega
    have h1 := hpos (L + 1 - 1 - (i + 1)) (by omega)
    rw [e1, div_pow_succ, hb] at ha
    rw [hb] at h1
    omega

example : exponentialRange 20 = .ok [1, 2, 5, 10, 20] := by decide +kernel

/-- C45: "at most doubles" is false: from 1 to 3, from 2 to 5. -/
theorem C45_doubling_wrong :
    ∃ n l a b, exponentialRange n = .ok l ∧ l[0]? = some a ∧ l[1]? = some b ∧ 2 * a < b :=
  ⟨3, [1, 3], 1, 3, by decide +kernel, rfl, rfl, by decide⟩

/-- C45: asking for 0 samples aborts the tool. -/
theorem C45_zero : exponentialRange 0 = .exit := rfl

/-- C45: every table the tool may use in `SRDDMin` is increasing, bounded by the requested
number of samples and ends at it. -/
theorem C45_rddmin_tables (param : String) (hp : param ∈ ["exp", "all", "single"]) (n : Nat)
    (hn : 1 ≤ n) : ∃ l, rddMinTab param n = .ok (some l) ∧ Tab n l n := by
  have bound : ∀ l : List Nat, l.Pairwise (· < ·) → l.getLast? = some n → ∀ x ∈ l, x ≤ n := by
    intro l hs hl x hx
    obtain ⟨ys, rfl⟩ := List.getLast?_eq_some_iff.1 hl
    rcases List.mem_append.1 hx with h | h
    · exact Nat.le_of_lt ((List.pairwise_append.1 hs).2.2 x h n (by simp))
    · simp at h; omega
  simp only [List.mem_cons, List.not_mem_nil, or_false] at hp
  rcases hp with rfl | rfl | rfl
  · obtain ⟨l, h1, -, h2, h3, -⟩ := C45_exponential_partial n hn
    exact ⟨l, by simp [rddMinTab, h1], h3, h2, bound l h3 h2⟩
  · refine ⟨(List.range n).map (· + 1), by simp [rddMinTab], ?_, ?_, ?_⟩
    · rw [List.pairwise_map]
      exact List.pairwise_lt_range.imp (by intro a b h; omega)
    · obtain ⟨m, rfl⟩ : ∃ m, n = m + 1 := ⟨n - 1, by omega⟩
      rw [List.range_succ]; simp
    · intro x hx
      obtain ⟨y, hy, rfl⟩ := List.mem_map.1 hx
      rw [List.mem_range] at hy; omega
  · exact ⟨[n], by simp [rddMinTab], by simp, by simp, by simp⟩

/-- C45: the tables of the dichotomy stay below the requested number of samples. -/
theorem C45_dicho_tables (param : String) (hp : param ∈ dichoWords) (n : Nat) (hn : 1 ≤ n) :
    ∃ l, splitTab param n = .ok (some l) ∧ ∀ x ∈ l, x ≤ n := by
  simp only [dichoWords, List.mem_cons, List.not_mem_nil, or_false] at hp
  rcases hp with rfl | rfl | rfl | rfl
  · obtain ⟨l, h1, t⟩ := C45_rddmin_tables "exp" (by simp) n hn
    refine ⟨l, ?_, t.bound⟩
    simpa [rddMinTab, splitTab] using h1
  · exact ⟨List.range n, by simp [splitTab], fun x hx => by rw [List.mem_range] at hx; omega⟩
  · refine ⟨[(n + 1) / 2], by simp [splitTab], fun x hx => ?_⟩
    simp at hx; omega
  · exact ⟨[n], by simp [splitTab], by simp⟩

/-- C45: the table `all` of the dichotomy starts with a useless round of 0 samples and
leaves out the requested number. -/
theorem C45_dicho_all (n : Nat) (hn : 1 ≤ n) :
    ∃ l, splitTab "all" n = .ok (some l) ∧ l.head? = some 0 ∧ n ∉ l := by
  refine ⟨List.range n, by simp [splitTab], ?_, by simp⟩
  obtain ⟨m, rfl⟩ : ∃ m, n = m + 1 := ⟨n - 1, by omega⟩
  rw [List.range_eq_range', List.range'_succ]; rfl

section
variable {α K : Type} [DecidableEq α] [DecidableEq K]

/-- C42 with the options of the tool: whatever accepted words are chosen for the two
tables, and for every granularity but 1, the default search on any list of distinct
deltas, started from an empty disk, terminates with disjoint failing 1-minimal sets, and
what is left passes. -/
theorem C42_default_partial {e : Env α K} (h : Setup e e.nbRUN) (hn : 1 ≤ e.nbRUN)
    (p q : String) (hp : p ∈ ["exp", "all", "single"]) (hq : q ∈ dichoWords) {g : Int}
    (hg : g ≠ 1) (deltas : List α) (hnd : deltas.Nodup)
    (hall : ∃ i < e.nbRUN, e.sample (e.name deltas) i = false) :
    ∃ sTab dTab, rddMinTab p e.nbRUN = .ok (some sTab) ∧
      splitTab q e.nbRUN = .ok (some dTab) ∧
      ∀ fuel, enough deltas.length ≤ fuel →
        ∃ found d', drddmin e fuel deltas sTab dTab g (fun _ => []) = .ok (found, d') ∧ Good e e.nbRUN d' ∧
          (∀ c ∈ found, MinS e e.nbRUN e.nbRUN deltas c) ∧ found.Pairwise List.Disjoint ∧
          ∀ i < e.nbRUN,
            e.sample (e.name (deltas.filter fun x => decide (∀ c ∈ found, x ∉ c))) i = true := by
  obtain ⟨sTab, h1, t1⟩ := C45_rddmin_tables p hp e.nbRUN hn
  obtain ⟨dTab, h2, t2⟩ := C45_dicho_tables q hq e.nbRUN hn
  refine ⟨sTab, dTab, h1, h2, fun fuel hf => ?_⟩
  exact C42_drddmin_partial h t1 t2 hg fuel deltas hnd hf _ (fun k i b h => by simp at h) hall

end

/-! ## Options -/

/-- C55: the words documented for `DD_DICHO_TAB` are accepted. -/
theorem C55_words (parse : String → Option Int) (w : String) (hw : w ∈ dichoWords) :
    readDichoTab parse (some w) = .ok (.str w) := by
  simp [readDichoTab, readOneOption, hw]

/-- C55: but no integer is, although the help text says "or int": the conversion is spelled
`int/string` by the caller and `string/int` by the reader. -/
theorem C55_int_refused (parse : String → Option Int) (s : String) (hs : s ∉ dichoWords) :
    readDichoTab parse (some s) = .exit := by
  simp [readDichoTab, readOneOption, hs]

example : readDichoTab String.toInt? (some "3") = .exit := by decide +kernel

/-- C55: spelled the same, integers would be read. -/
example : readOneOption String.toInt? .stringInt (some dichoWords) (some "3") (.str "half") =
    .ok (.str "3") := by decide +kernel

/-- C55: the parallel mode needs at least as many processes as samples, otherwise the tool
silently falls back to the sequential one. -/
theorem C55_parallel (nbRUN : Int) (m : Option Int) (p : Int) :
    maxNbPROC nbRUN m = some p ↔ m = some p ∧ nbRUN ≤ p := by
  unfold maxNbPROC
  cases m with
  | none => simp
  | some q =>
    by_cases h : q < nbRUN
    · simp [h]; rintro rfl; omega
    · simp only [h, if_false, Option.some.injEq]
      constructor
      · rintro rfl; exact ⟨rfl, by omega⟩
      · exact fun h => h.1

/-- The search documented for each pair of words. -/
def documented (a v : String) : Search :=
  if a = "ddmax" then .ddmax
  else if v = "s" ∨ v = "stoch" then .srddmin
  else if v = "d" ∨ v = "dicho" then .drddmin
  else .rddmin

/-- C55: every accepted pair of words for `DD_ALGO` and `DD_RDDMIN` (unset: `rddmin` and
`d`) starts exactly the documented search, once. -/
theorem C55_search (parse : String → Option Int) (a v : Option String)
    (ha : ∀ x, a = some x → x ∈ algoWords) (hv : ∀ x, v = some x → x ∈ variantWords) :
    ∃ name, ddAlgo parse a v = .ok name ∧
      searches name = [documented (a.getD "rddmin") (v.getD "d")] := by
  have key : ∀ a ∈ none :: algoWords.map some, ∀ v ∈ none :: variantWords.map some,
      ∃ name ∈ ["rddmin", "srddmin", "drddmin", "ddmax"],
        ddAlgo (fun _ => none) a v = .ok name ∧
        searches name = [documented (a.getD "rddmin") (v.getD "d")] := by decide +kernel
  have hpar : ddAlgo parse a v = ddAlgo (fun _ => none) a v := by
    cases a <;> cases v <;> rfl
  have ma : a ∈ none :: algoWords.map some := by
    cases a with
    | none => simp
    | some x => simpa using ha x rfl
  have mv : v ∈ none :: variantWords.map some := by
    cases v with
    | none => simp
    | some x => simpa using hv x rfl
  obtain ⟨name, -, h1, h2⟩ := key a ma v mv
  exact ⟨name, hpar.trans h1, h2⟩

/-- C55: any other word stops the tool. -/
theorem C55_search_refused (parse : String → Option Int) (a v : String) :
    (a ∉ algoWords → ∀ v, ddAlgo parse (some a) v = .exit) ∧
    (v ∉ variantWords → ∀ a, ddAlgo parse a (some v) = .exit) := by
  constructor
  · intro h v
    simp [ddAlgo, readOneOption, h]
  · intro h a
    cases a with
    | none => simp [ddAlgo, readOneOption, h]
    | some a => by_cases ha : a ∈ algoWords <;> simp [ddAlgo, readOneOption, h, ha]

end Verif.Ddtool
