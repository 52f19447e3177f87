import Verif.Prism.Features
import Mathlib.Tactic.SplitIfs

/-!
# C77: the check of compatibility between the program and the PRISM library

A function compiled with other target features may pass its vectors otherwise.  The meaning of a
list of features is stated here, independently of the pass: LLVM reads it from left to right,
`+f` switches `f` and all it implies on, `-f` switches `f` and all that imply it off.
-/

namespace Verif.Prism

/-- The chain of the x86-64 vector extensions, each implying those before. -/
def chain : List Str :=
  ["sse".toList, "sse2".toList, "sse3".toList, "ssse3".toList, "sse4.1".toList, "sse4.2".toList,
   "avx".toList, "avx2".toList, "avx512f".toList]

/-- Place of a feature in the chain, from 1. -/
def rank (name : Str) : Option Nat := (chain.idxOf? name).map (· + 1)

/-- Effect of a feature on the level: `+f` raises it to that of `f`, `-f` lowers it below. -/
def applyFeature (lvl : Nat) (f : Feature) : Nat :=
  match rank f.name with
  | none => lvl
  | some r => if f.enabled then max lvl r else min lvl (r - 1)

/-- Level reached by a list of features, read from left to right. -/
def level (fs : List Feature) : Nat := fs.foldl applyFeature 0

/-- Width of the vector registers at a level. -/
def registerBits (lvl : Nat) : Nat := if 9 ≤ lvl then 512 else if 7 ≤ lvl then 256 else 128

/-- A vector of `bits` bits passed by value is cut in pieces that fit the registers: size of the
pieces. -/
def pieceBits (lvl bits : Nat) : Nat := min bits (registerBits lvl)

/-- The attribute the compiler writes for a list of features. -/
def render : List Feature → Str
  | [] => []
  | [f] => f.text
  | f :: g :: fs => f.text ++ ',' :: render (g :: fs)

/-- A list of features as the compiler writes it: the implied features are given, and no feature
is switched off below one that is on. -/
structure Resolved (fs : List Feature) : Prop where
  down : ∀ f ∈ fs, f.enabled = true → ∀ r, rank f.name = some r →
    ∀ name q, rank name = some q → q ≤ r → (⟨true, name⟩ : Feature) ∈ fs
  up : ∀ f ∈ fs, ∀ g ∈ fs, f.enabled = true → g.enabled = false →
    ∀ r q, rank f.name = some r → rank g.name = some q → r < q
  comma : ∀ f ∈ fs, ',' ∉ f.name

theorem ofText_text (f : Feature) : Feature.ofText f.text = f := by
  obtain ⟨e, n⟩ := f
  cases e <;> rfl

theorem splitFrom_word (w cur rest : Str) (h : ',' ∉ w) :
    splitFrom ',' cur (w ++ rest) = splitFrom ',' (w.reverse ++ cur) rest := by
  induction w generalizing cur with
  | nil => rfl
  | cons c w ih =>
    simp only [List.mem_cons, not_or] at h
    rw [List.cons_append, splitFrom, if_neg (fun e => h.1 e.symm), ih _ h.2]
    simp

theorem text_comma (f : Feature) (h : ',' ∉ f.name) : ',' ∉ f.text := by
  unfold Feature.text
  simp only [List.mem_cons, not_or]
  exact ⟨by split_ifs <;> decide, h⟩

theorem split_render (fs : List Feature) (h : ∀ f ∈ fs, ',' ∉ f.name) :
    split (render fs) ',' = fs.map Feature.text := by
  unfold split
  induction fs with
  | nil => rfl
  | cons f fs ih =>
    have hf := text_comma f (h f (by simp))
    cases fs with
    | nil =>
      have := splitFrom_word f.text [] [] hf
      simp only [List.append_nil] at this
      rw [render, this, splitFrom, if_neg (by simp [Feature.text])]
      simp
    | cons g fs =>
      rw [render, splitFrom_word _ _ _ hf, splitFrom, if_pos rfl, ih (fun x hx => h x (by simp [hx]))]
      simp

theorem mem_foldl_add (ts : List Str) (fs : Features) (f : Feature) :
    f ∈ ts.foldl (fun fs t => Features.add fs (Feature.ofText t)) fs ↔
      f ∈ fs ∨ ∃ t ∈ ts, Feature.ofText t = f := by
  induction ts generalizing fs with
  | nil => simp
  | cons t ts ih =>
    rw [List.foldl_cons, ih]
    unfold Features.add
    split_ifs with hm
    · constructor
      · rintro (h | ⟨u, hu, e⟩)
        · exact .inl h
        · exact .inr ⟨u, by simp [hu], e⟩
      · rintro (h | ⟨u, hu, e⟩)
        · exact .inl h
        · rcases List.mem_cons.mp hu with rfl | hu
          · exact .inl (e ▸ hm)
          · exact .inr ⟨u, hu, e⟩
    · simp only [List.mem_append, List.mem_cons, List.not_mem_nil, or_false]
      constructor
      · rintro ((h | h) | ⟨u, hu, e⟩)
        · exact .inl h
        · exact .inr ⟨t, .inl rfl, h.symm⟩
        · exact .inr ⟨u, .inr hu, e⟩
      · rintro (h | ⟨u, rfl | hu, e⟩)
        · exact .inl (.inl h)
        · exact .inl (.inr e.symm)
        · exact .inr ⟨u, hu, e⟩

/-- C77, reading: the set the pass builds from an attribute has exactly the features written in
it. -/
theorem C77_read (fs : List Feature) (h : ∀ f ∈ fs, ',' ∉ f.name) (f : Feature) :
    f ∈ Features.ofAttribute (some (render fs)) ↔ f ∈ fs := by
  unfold Features.ofAttribute
  dsimp only
  rw [split_render fs h, mem_foldl_add]
  constructor
  · rintro (h | ⟨t, ht, e⟩)
    · exact absurd h List.not_mem_nil
    · obtain ⟨g, hg, rfl⟩ := List.mem_map.mp ht
      rw [ofText_text] at e
      exact e ▸ hg
  · intro hf
    exact .inr ⟨f.text, List.mem_map_of_mem hf, ofText_text f⟩

example : Features.ofAttribute (some "+avx,-avx2,+sse".toList) =
    [⟨true, "avx".toList⟩, ⟨false, "avx2".toList⟩, ⟨true, "sse".toList⟩] := by decide +kernel

theorem level_from (fs : List Feature) (h : Resolved fs) (l : List Feature) (hl : ∀ f ∈ l, f ∈ fs)
    (lvl : Nat) (hlvl : lvl = 0 ∨ ∃ f ∈ fs, f.enabled = true ∧ rank f.name = some lvl) :
    let e := l.foldl applyFeature lvl
    (e = 0 ∨ ∃ f ∈ fs, f.enabled = true ∧ rank f.name = some e) ∧ lvl ≤ e ∧
      ∀ f ∈ l, f.enabled = true → ∀ r, rank f.name = some r → r ≤ e := by
  induction l generalizing lvl with
  | nil => exact ⟨hlvl, Nat.le_refl _, fun f hf => absurd hf List.not_mem_nil⟩
  | cons g l ih =>
    have hg := hl g (by simp)
    have step : lvl ≤ applyFeature lvl g ∧ (applyFeature lvl g = 0 ∨
        ∃ f ∈ fs, f.enabled = true ∧ rank f.name = some (applyFeature lvl g)) ∧
        (g.enabled = true → ∀ r, rank g.name = some r → r ≤ applyFeature lvl g) := by
      unfold applyFeature
      cases hr : rank g.name with
      | none => exact ⟨Nat.le_refl _, hlvl, fun _ r e => by cases e⟩
      | some r =>
        dsimp only
        by_cases hgE : g.enabled = true
        · rw [if_pos hgE]
          refine ⟨Nat.le_max_left _ _, ?_, fun _ r' e => by cases e; exact Nat.le_max_right _ _⟩
          rcases Nat.le_total lvl r with hle | hle
          · rw [Nat.max_eq_right hle]; exact .inr ⟨g, hg, hgE, hr⟩
          · rw [Nat.max_eq_left hle]; exact hlvl
        · rw [if_neg hgE]
          have hle : lvl ≤ r - 1 := by
            rcases hlvl with h0 | ⟨f, hf, hfE, hfr⟩
            · omega
            · have := h.up f hf g hg hfE (by simpa using hgE) _ _ hfr hr
              omega
          rw [Nat.min_eq_left hle]
          exact ⟨Nat.le_refl _, hlvl, fun e => absurd e hgE⟩
    have := ih (fun f hf => hl f (by simp [hf])) _ step.2.1
    refine ⟨this.1, Nat.le_trans step.1 this.2.1, ?_⟩
    intro f hf hfE r hr
    rcases List.mem_cons.mp hf with rfl | hf
    · exact Nat.le_trans (step.2.2 hfE r hr) this.2.1
    · exact this.2.2 f hf hfE r hr

/-- The level of a resolved list reaches that of a feature of the chain exactly when the feature
is on. -/
theorem le_level (fs : List Feature) (h : Resolved fs) (name : Str) (r : Nat) (hr : rank name = some r)
    (h0 : r ≠ 0) : r ≤ level fs ↔ (⟨true, name⟩ : Feature) ∈ fs := by
  have := level_from fs h fs (fun _ hf => hf) 0 (.inl rfl)
  constructor
  · intro hle
    rcases this.1 with e | ⟨f, hf, hfE, hfr⟩
    · unfold level at hle; omega
    · exact h.down f hf hfE _ hfr name r hr hle
  · intro hm
    exact this.2.2 _ hm rfl r hr

theorem has_iff (fs : List Feature) (h : ∀ f ∈ fs, ',' ∉ f.name) (name : Str)
    (hn : Feature.ofText name = ⟨true, name⟩) :
    (Features.ofAttribute (some (render fs))).has name = true ↔ (⟨true, name⟩ : Feature) ∈ fs := by
  unfold Features.has
  rw [hn, decide_eq_true_iff, C77_read fs h]

theorem isa_bits (fs : List Feature) (h : Resolved fs) :
    let F := Features.ofAttribute (some (render fs))
    (9 ≤ level fs ↔ highestIsa F = 7) ∧ (7 ≤ level fs ↔ 5 ≤ highestIsa F) := by
  have H := fun n hn => has_iff fs h.comma n hn
  have h9 := le_level fs h "avx512f".toList 9 (by decide +kernel) (by decide)
  have h8 := le_level fs h "avx2".toList 8 (by decide +kernel) (by decide)
  have h7 := le_level fs h "avx".toList 7 (by decide +kernel) (by decide)
  rw [← H _ rfl] at h9 h8 h7
  dsimp only
  unfold highestIsa
  constructor
  · rw [h9]
    constructor
    · intro e; rw [if_pos e]
    · intro e
      split_ifs at e with a
      · exact a
      all_goals omega
  · constructor
    · intro e
      have := h7.mp e
      split_ifs <;> simp_all
    · intro e
      split_ifs at e with a b c
      · have := h9.mpr a; omega
      · have := h8.mpr b; omega
      · exact h7.mpr c
      all_goals omega

theorem registerBits_mono (a b : Nat) (h7 : 7 ≤ a → 7 ≤ b) (h9 : 9 ≤ a → 9 ≤ b) :
    registerBits a ≤ registerBits b := by
  unfold registerBits
  split_ifs <;> omega

/-- The features of the attribute of a resolved, non-empty list are not empty. -/
theorem nonempty_attribute (fs : List Feature) (h : ∀ f ∈ fs, ',' ∉ f.name) (hne : fs ≠ []) :
    (Features.ofAttribute (some (render fs))).isEmpty = false := by
  cases fs with
  | nil => exact absurd rfl hne
  | cons f fs =>
    have := (C77_read (f :: fs) h f).mpr (by simp)
    cases he : Features.ofAttribute (some (render (f :: fs))) with
    | nil => rw [he] at this; cases this
    | cons => rfl

/-- C77, soundness of the check.  When the pass accepts a call, the registers of the caller are at
least as wide as those of the callee. -/
theorem C77_width (caller callee : List Feature) (hne : caller ≠ []) (h1 : Resolved caller)
    (h2 : Resolved callee)
    (h : areABICompatible (some (render caller)) (some (render callee)) = true) :
    registerBits (level callee) ≤ registerBits (level caller) := by
  have b1 := isa_bits caller h1
  have b2 := isa_bits callee h2
  unfold areABICompatible at h
  dsimp only at h
  rw [nonempty_attribute caller h1.comma hne, if_neg (by simp)] at h
  split_ifs at h with hi
  · unfold Features.isIncludeIn at hi
    rw [List.all_eq_true] at hi
    have sub : ∀ f ∈ callee, f ∈ caller := by
      intro f hf
      have := hi f ((C77_read callee h2.comma f).mpr hf)
      rw [decide_eq_true_iff] at this
      exact (C77_read caller h1.comma f).mp this
    apply registerBits_mono
    · intro hl
      have := (le_level callee h2 "avx".toList 7 (by decide +kernel) (by decide)).mp hl
      exact (le_level caller h1 "avx".toList 7 (by decide +kernel) (by decide)).mpr (sub _ this)
    · intro hl
      have := (le_level callee h2 "avx512f".toList 9 (by decide +kernel) (by decide)).mp hl
      exact (le_level caller h1 "avx512f".toList 9 (by decide +kernel) (by decide)).mpr (sub _ this)
  · have h := of_decide_eq_true h
    have le7 : highestIsa (Features.ofAttribute (some (render caller))) ≤ 7 := by
      unfold highestIsa; split_ifs <;> omega
    apply registerBits_mono
    · intro hl; exact b1.2.mpr (by have := b2.2.mp hl; omega)
    · intro hl; exact b1.1.mpr (by have := b2.1.mp hl; omega)

/-- C77, what the check guarantees.  A vector that fits a register of the callee is passed by an
accepted call as the callee expects it.  Missing: wider vectors, for which this fails
(`C77_wider_wrong`), and callers without features (`C77_empty_wrong`). -/
theorem C77_same_partial (caller callee : List Feature) (hne : caller ≠ []) (h1 : Resolved caller)
    (h2 : Resolved callee) (bits : Nat) (hb : bits ≤ registerBits (level callee))
    (h : areABICompatible (some (render caller)) (some (render callee)) = true) :
    pieceBits (level caller) bits = pieceBits (level callee) bits := by
  have := C77_width caller callee hne h1 h2 h
  unfold pieceBits
  omega

/-- The instruction sets of the check, the largest first (`TargetFeatures.hpp:45-54`). -/
def isaNames : List Str :=
  ["avx512f".toList, "avx2".toList, "avx".toList, "sse4.2".toList, "sse3".toList, "sse2".toList, "sse".toList]

theorem highestIsa_eq (F : Features) (k : Nat) (hk : k < 7) :
    7 - k ≤ highestIsa F ↔ ∃ n ∈ isaNames.take (k + 1), F.has n = true := by
  unfold highestIsa isaNames
  have : k = 0 ∨ k = 1 ∨ k = 2 ∨ k = 3 ∨ k = 4 ∨ k = 5 ∨ k = 6 := by omega
  rcases this with rfl | rfl | rfl | rfl | rfl | rfl | rfl <;>
  · simp only [List.take, List.mem_cons, List.not_mem_nil, or_false, exists_eq_or_imp, exists_eq_left]
    split_ifs <;> simp_all

/-- C77, instruction sets: a function accepted uses no instruction set beyond all those of the
caller. -/
theorem C77_isa (caller callee : List Feature) (hne : caller ≠ []) (h1 : ∀ f ∈ caller, ',' ∉ f.name)
    (h2 : ∀ f ∈ callee, ',' ∉ f.name)
    (h : areABICompatible (some (render caller)) (some (render callee)) = true)
    (k : Nat) (hk : k < 7) (n : Str) (hn : isaNames[k]? = some n) (hc : (⟨true, n⟩ : Feature) ∈ callee) :
    ∃ n' ∈ isaNames.take (k + 1), (⟨true, n'⟩ : Feature) ∈ caller := by
  have hof : ∀ n ∈ isaNames, Feature.ofText n = ⟨true, n⟩ := by decide +kernel
  have hmem : n ∈ isaNames := List.mem_of_getElem? hn
  have htake : n ∈ isaNames.take (k + 1) := by
    have : (isaNames.take (k + 1))[k]? = some n := by rw [List.getElem?_take_of_lt (by omega), hn]
    exact List.mem_of_getElem? this
  unfold areABICompatible at h
  dsimp only at h
  rw [nonempty_attribute caller h1 hne, if_neg (by simp)] at h
  split_ifs at h with hi
  · unfold Features.isIncludeIn at hi
    rw [List.all_eq_true] at hi
    have := hi ⟨true, n⟩ ((C77_read callee h2 _).mpr hc)
    exact ⟨n, htake, (C77_read caller h1 _).mp (by simpa using this)⟩
  · have h3 := (highestIsa_eq (Features.ofAttribute (some (render callee))) k hk).mpr
      ⟨n, htake, (has_iff callee h2 n (hof n hmem)).mpr hc⟩
    have h4 := of_decide_eq_true h
    obtain ⟨n', hn', h5⟩ := (highestIsa_eq _ k hk).mp (Nat.le_trans h3 h4)
    exact ⟨n', hn', (has_iff caller h1 n' (hof n' (List.mem_of_mem_take hn'))).mp h5⟩

/-- A function with AVX2 is not called from one with AVX only. -/
example : areABICompatible (some "+sse,+avx".toList) (some "+sse,+avx,+avx2".toList) = false := by decide +kernel

/-- C77, completeness of the check: a call between functions compiled with the same features is
accepted. -/
theorem C77_equal (attr : Option Str) : areABICompatible attr attr = true := by
  unfold areABICompatible
  dsimp only
  split_ifs
  · rfl
  · rfl
  · simp

/-- C77 is false of wide vectors.  Whenever the registers of the caller are wider than those of
the callee the call is accepted, and a vector that does not fit a register of the callee is passed
in larger pieces than the callee expects. -/
theorem C77_wider_wrong (caller callee : List Feature) (h1 : Resolved caller) (h2 : Resolved callee)
    (hw : registerBits (level callee) < registerBits (level caller)) (bits : Nat)
    (hb : registerBits (level callee) < bits) :
    areABICompatible (some (render caller)) (some (render callee)) = true ∧
      pieceBits (level callee) bits < pieceBits (level caller) bits := by
  refine ⟨?_, by unfold pieceBits; omega⟩
  have b1 := isa_bits caller h1
  have b2 := isa_bits callee h2
  have le7 : ∀ F, highestIsa F ≤ 7 := by intro F; unfold highestIsa; split_ifs <;> omega
  have := le7 (Features.ofAttribute (some (render caller)))
  have := le7 (Features.ofAttribute (some (render callee)))
  unfold areABICompatible
  dsimp only
  split_ifs
  · rfl
  · rfl
  · apply decide_eq_true
    dsimp only at b1 b2
    unfold registerBits at hw
    split_ifs at hw <;> omega

/-- Features of a program compiled for AVX. -/
def avxFeatures : List Feature :=
  [⟨true, "avx".toList⟩, ⟨true, "sse".toList⟩, ⟨true, "sse2".toList⟩, ⟨true, "sse3".toList⟩,
   ⟨true, "sse4.1".toList⟩, ⟨true, "sse4.2".toList⟩, ⟨true, "ssse3".toList⟩]

/-- Features of a program compiled for the base architecture. -/
def baseFeatures : List Feature := [⟨true, "sse".toList⟩, ⟨true, "sse2".toList⟩]

theorem rank_cases (name : Str) (q : Nat) (h : rank name = some q) :
    1 ≤ q ∧ chain[q - 1]? = some name := by
  unfold rank at h
  simp only [Option.map_eq_some_iff] at h
  obtain ⟨i, hi, rfl⟩ := h
  refine ⟨by omega, ?_⟩
  rw [List.idxOf?, List.findIdx?_eq_some_iff_getElem] at hi
  obtain ⟨hlt, e, -⟩ := hi
  have := eq_of_beq e
  simp only [Nat.add_sub_cancel]
  rw [List.getElem?_eq_getElem hlt, this]

theorem resolved_avx : Resolved avxFeatures where
  down := by
    intro f hf _ r hr name q hq hle
    have hr7 : r ≤ 7 := by
      have : ∀ f ∈ avxFeatures, ∀ r, rank f.name = some r → r ≤ 7 := by
        have : ∀ f ∈ avxFeatures, (rank f.name).getD 0 ≤ 7 := by decide +kernel
        intro f hf r hr
        have := this f hf
        rwa [hr] at this
      exact this f hf r hr
    obtain ⟨h1, hc⟩ := rank_cases name q hq
    have key : ∀ i < 7, ∀ n, chain[i]? = some n → (⟨true, n⟩ : Feature) ∈ avxFeatures := by
      have : ∀ i < 7, (⟨true, (chain[i]?).getD []⟩ : Feature) ∈ avxFeatures := by decide +kernel
      intro i hi n hn
      have := this i hi
      rwa [hn] at this
    exact key (q - 1) (by omega) name hc
  up := by
    intro f hf g hg _ hgE
    have : ∀ g ∈ avxFeatures, g.enabled = true := by decide +kernel
    rw [this g hg] at hgE
    cases hgE
  comma := by decide +kernel

theorem resolved_base : Resolved baseFeatures where
  down := by
    intro f hf _ r hr name q hq hle
    have hr7 : r ≤ 2 := by
      have : ∀ f ∈ baseFeatures, (rank f.name).getD 0 ≤ 2 := by decide +kernel
      have := this f hf
      rwa [hr] at this
    obtain ⟨h1, hc⟩ := rank_cases name q hq
    have key : ∀ i < 2, ∀ n, chain[i]? = some n → (⟨true, n⟩ : Feature) ∈ baseFeatures := by
      have : ∀ i < 2, (⟨true, (chain[i]?).getD []⟩ : Feature) ∈ baseFeatures := by decide +kernel
      intro i hi n hn
      have := this i hi
      rwa [hn] at this
    exact key (q - 1) (by omega) name hc
  up := by
    intro f hf g hg _ hgE
    have : ∀ g ∈ baseFeatures, g.enabled = true := by decide +kernel
    rw [this g hg] at hgE
    cases hgE
  comma := by decide +kernel

example : Resolved avxFeatures ∧ Resolved baseFeatures ∧
    areABICompatible (some (render avxFeatures)) (some (render baseFeatures)) = true ∧
    pieceBits (level avxFeatures) 128 = 128 ∧ pieceBits (level baseFeatures) 128 = 128 :=
  ⟨resolved_avx, resolved_base, by decide +kernel, by decide +kernel, by decide +kernel⟩

/-- A vector of eight `float`s, program compiled for AVX, library for the base architecture. -/
example : areABICompatible (some (render avxFeatures)) (some (render baseFeatures)) = true ∧
    pieceBits (level avxFeatures) 256 = 256 ∧ pieceBits (level baseFeatures) 256 = 128 :=
  ⟨by decide +kernel, by decide +kernel, by decide +kernel⟩

/-- C77 is false of callers without features: they are accepted whatever the callee. -/
theorem C77_empty_wrong (callee : Option Str) (caller : Option Str) (h : caller = none ∨ caller = some []) :
    areABICompatible caller callee = true := by
  rcases h with rfl | rfl <;> rfl

/-- The library passes a vector of 256 bits in one piece, a function without features in two. -/
example : areABICompatible none (some (render avxFeatures)) = true ∧
    pieceBits (level []) 256 = 128 ∧ pieceBits (level avxFeatures) 256 = 256 :=
  ⟨by decide +kernel, by decide +kernel, by decide +kernel⟩

/-- C77 is false of lists in which a feature is switched off again: the check only looks for
`+avx`. -/
theorem C77_conflict_wrong :
    let caller : List Feature := baseFeatures ++ [⟨true, "avx".toList⟩, ⟨false, "avx".toList⟩]
    areABICompatible (some (render caller)) (some (render avxFeatures)) = true ∧
      pieceBits (level caller) 256 = 128 ∧ pieceBits (level avxFeatures) 256 = 256 :=
  ⟨by decide +kernel, by decide +kernel, by decide +kernel⟩

/-- C77, refusals.  A call is refused whenever the registers of the callee are wider, even if
what it passes has the same form in both functions: the check does not look at the arguments. -/
theorem C77_scalar_wrong (caller callee : List Feature) (hne : caller ≠ []) (h1 : Resolved caller)
    (h2 : Resolved callee) (hw : registerBits (level caller) < registerBits (level callee)) :
    areABICompatible (some (render caller)) (some (render callee)) = false ∧
      ∀ bits ≤ 128, pieceBits (level caller) bits = pieceBits (level callee) bits := by
  constructor
  · cases h : areABICompatible (some (render caller)) (some (render callee)) with
    | false => rfl
    | true =>
      have := C77_width caller callee hne h1 h2 h
      omega
  · intro bits hb
    have : ∀ l, 128 ≤ registerBits l := by intro l; unfold registerBits; split_ifs <;> omega
    have h3 := this (level caller)
    have h4 := this (level callee)
    unfold pieceBits
    omega

/-- An addition of two `double`s in a program compiled for the base architecture is not
instrumented with a library compiled for AVX. -/
example : areABICompatible (some (render baseFeatures)) (some (render avxFeatures)) = false ∧
    pieceBits (level baseFeatures) 64 = pieceBits (level avxFeatures) 64 :=
  ⟨by decide +kernel, by decide +kernel⟩

end Verif.Prism
