import Verif.Ci.Report
import Verif.Vfi.FileProps
import Mathlib.Tactic.NormNum
import Mathlib.Tactic.SplitIfs
import Mathlib.Data.List.Nodup
import Mathlib.Data.List.Sort

/-!
# C71: names of the runs of a report
-/

namespace Verif.Ci.Report
open Verif

/-- The digits at the beginning of a text, as a number. -/
def lead (s : Str) : Nat := Nat.ofDigitChars 10 (s.takeWhile (· ≠ ' ')) 0

/-- The first two characters of the second word. -/
def second (s : Str) : Str := ((s.dropWhile (· ≠ ' ')).drop 1).take 2

theorem digit_ne {n : Nat} {c d : Char} (hd : d.isDigit = false) (h : c ∈ Nat.toDigits 10 n) : c ≠ d := by
  have := Nat.isDigit_of_mem_toDigits (by norm_num) (by norm_num) h
  rintro rfl
  rw [hd] at this
  exact absurd this (by decide)

theorem takeWhile_digits (n : Nat) (r : Str) :
    (Nat.toDigits 10 n ++ ' ' :: r).takeWhile (· ≠ ' ') = Nat.toDigits 10 n := by
  rw [List.takeWhile_append_of_pos, List.takeWhile_cons_of_neg (by simp), List.append_nil]
  intro c hc
  simpa using digit_ne (d := ' ') (by decide) hc

theorem dropWhile_digits (n : Nat) (r : Str) :
    (Nat.toDigits 10 n ++ ' ' :: r).dropWhile (· ≠ ' ') = ' ' :: r := by
  rw [List.dropWhile_append_of_pos, List.dropWhile_cons_of_neg (by simp)]
  intro c hc
  simpa using digit_ne (d := ' ') (by decide) hc

theorem ago_eq (n : Nat) (u : Str) : ago n u =
    Nat.toDigits 10 n ++ ' ' :: (u ++ (if n ≠ 1 then "s".toList else []) ++ " ago".toList) := by
  unfold ago
  have : (" ".toList : Str) = [' '] := rfl
  rw [this]
  simp [List.append_assoc]

theorem lead_ago (n : Nat) (u : Str) : lead (ago n u) = n := by
  unfold lead
  rw [ago_eq, takeWhile_digits, Nat.ofDigitChars_toDigits (by norm_num) (by norm_num)]

theorem second_ago (n : Nat) (a b : Char) (u : Str) : second (ago n (a :: b :: u)) = [a, b] := by
  unfold second
  rw [ago_eq, dropWhile_digits]
  rfl

/-- The number of the unit of an age in seconds. -/
def rank (d : Int) : Nat :=
  if d < 60 then 0 else if d < 3600 then 1 else if d < 86400 then 2 else if d < 604800 then 3
  else if d < 2592000 then 4 else 5

theorem rank_mono {a b : Int} (h : a ≤ b) : rank a ≤ rank b := by
  unfold rank
  split_ifs <;> omega

/-- The units, and the letters that tell them. -/
def unit : Nat → Nat × Str
  | 0 => (1, "th".toList)
  | 1 => (60, "mi".toList)
  | 2 => (3600, "ho".toList)
  | 3 => (86400, "da".toList)
  | 4 => (604800, "we".toList)
  | _ => (2592000, "mo".toList)

theorem rank_lt (d : Int) : rank d < 6 := by
  unfold rank
  split_ifs <;> omega

theorem unit_inj {i j : Nat} (hi : i < 6) (hj : j < 6) (h : (unit i).2 = (unit j).2) : i = j := by
  have : ∀ i < 6, ∀ j < 6, (unit i).2 = (unit j).2 → i = j := by decide
  exact this i hi j hj h

theorem age_spec (d : Int) : second (age d) = (unit (rank d)).2 ∧
    (rank d ≠ 0 → lead (age d) = d.toNat / (unit (rank d)).1) := by
  unfold age rank
  dsimp only
  by_cases h0 : d < 60
  · rw [if_pos h0, if_pos h0]
    exact ⟨by decide, fun h => absurd rfl h⟩
  rw [if_neg h0, if_neg h0]
  by_cases h1 : d < 3600
  · rw [if_pos (by omega), if_pos h1]
    exact ⟨second_ago _ 'm' 'i' "nute".toList, fun _ => lead_ago _ _⟩
  rw [if_neg (by omega), if_neg h1]
  by_cases h2 : d < 86400
  · rw [if_pos (by omega), if_pos h2]
    exact ⟨second_ago _ 'h' 'o' "ur".toList, fun _ => lead_ago _ _⟩
  rw [if_neg (by omega), if_neg h2]
  by_cases h3 : d < 604800
  · rw [if_pos (by omega), if_pos h3]
    exact ⟨second_ago _ 'd' 'a' "y".toList, fun _ => lead_ago _ _⟩
  rw [if_neg (by omega), if_neg h3]
  by_cases h4 : d < 2592000
  · rw [if_pos (by omega), if_pos h4]
    exact ⟨second_ago _ 'w' 'e' "ek".toList, fun _ => lead_ago _ _⟩
  rw [if_neg (by omega), if_neg h4]
  exact ⟨second_ago _ 'm' 'o' "nth".toList, fun _ => lead_ago _ _⟩

/-- The text of an age, from its unit and its number. -/
def text (i n : Nat) : Str :=
  match i with
  | 0 => "Less than a minute ago".toList
  | 1 => ago n "minute".toList
  | 2 => ago n "hour".toList
  | 3 => ago n "day".toList
  | 4 => ago n "week".toList
  | _ => ago n "month".toList

theorem age_text (d : Int) : age d = text (rank d) (d.toNat / (unit (rank d)).1) := by
  unfold age rank
  dsimp only
  by_cases h0 : d < 60
  · rw [if_pos h0, if_pos h0]; rfl
  rw [if_neg h0, if_neg h0]
  by_cases h1 : d < 3600
  · rw [if_pos (by omega), if_pos h1]; rfl
  rw [if_neg (by omega), if_neg h1]
  by_cases h2 : d < 86400
  · rw [if_pos (by omega), if_pos h2]; rfl
  rw [if_neg (by omega), if_neg h2]
  by_cases h3 : d < 604800
  · rw [if_pos (by omega), if_pos h3]; rfl
  rw [if_neg (by omega), if_neg h3]
  by_cases h4 : d < 2592000
  · rw [if_pos (by omega), if_pos h4]; rfl
  rw [if_neg (by omega), if_neg h4]; rfl

theorem text_zero (n m : Nat) : text 0 n = text 0 m := rfl

/-- An age between two ages with the same text has this text. -/
theorem age_between {a b c : Int} (h1 : a ≤ b) (h2 : b ≤ c) (h : age a = age c) : age b = age a := by
  obtain ⟨sa, la⟩ := age_spec a
  obtain ⟨sc, lc⟩ := age_spec c
  have hr : rank a = rank c := unit_inj (rank_lt _) (rank_lt _) (by rw [← sa, ← sc, h])
  have m1 := rank_mono h1
  have m2 := rank_mono h2
  have hb : rank b = rank a := by omega
  rw [age_text a, age_text b, hb]
  by_cases hz : rank a = 0
  · rw [hz]; exact text_zero _ _
  · have e : a.toNat / (unit (rank a)).1 = c.toNat / (unit (rank a)).1 := by
      rw [← la hz, h, lc (by omega), hr]
    have d1 : a.toNat / (unit (rank a)).1 ≤ b.toNat / (unit (rank a)).1 := Nat.div_le_div_right (by omega)
    have d2 : b.toNat / (unit (rank a)).1 ≤ c.toNat / (unit (rank a)).1 := Nat.div_le_div_right (by omega)
    rw [show b.toNat / (unit (rank a)).1 = a.toNat / (unit (rank a)).1 by omega]

/-! ## Runs of equal texts -/

/-- What is between two equal elements is equal to them. -/
def Contig {α : Type} (l : List α) : Prop :=
  ∀ (i k j : Nat) (x : α), i < k → k < j → l[i]? = some x → l[j]? = some x → l[k]? = some x

theorem Contig.tail {α : Type} {a : α} {l : List α} (h : Contig (a :: l)) : Contig l := by
  intro i k j x h1 h2 h3 h4
  have := h (i + 1) (k + 1) (j + 1) x (by omega) (by omega) (by simpa using h3) (by simpa using h4)
  simpa using this

theorem Contig.head {α : Type} {a b : α} {l : List α} (h : Contig (a :: b :: l)) (hab : a ≠ b) :
    a ∉ b :: l := by
  intro hm
  obtain ⟨j, hj, e⟩ := List.mem_iff_getElem.1 hm
  rcases j with _ | j
  · simp at e; exact hab e.symm
  · have := h 0 1 (j + 2) a (by omega) (by omega) (by simp) (by
      rw [List.getElem?_cons_succ, List.getElem?_eq_getElem hj, e])
    simp at this
    exact hab this.symm

theorem contig_const {α : Type} {a : α} {l : List α} (h : ∀ x ∈ l, x = a) : Contig l := by
  intro i k j x _ h2 _ h4
  obtain ⟨hj, e⟩ := List.getElem?_eq_some_iff.1 h4
  have hk : k < l.length := by omega
  rw [List.getElem?_eq_getElem hk, h _ (List.getElem_mem hk), ← e, h _ (List.getElem_mem hj)]

/-- The number of opening parentheses. -/
def opens (s : Str) : Nat := s.count '('

theorem opens_paren (s : Str) (n : Nat) : opens (paren s (Nat.toDigits 10 n)) = opens s + 1 := by
  unfold opens paren
  have : (Nat.toDigits 10 n).count '(' = 0 := by
    rw [List.count_eq_zero]
    intro h
    exact digit_ne (d := '(') (by decide) h rfl
  have e1 : (" (".toList : Str).count '(' = 1 := by decide
  have e2 : (")".toList : Str).count '(' = 0 := by decide
  rw [List.count_append, List.count_append, List.count_append, this, e1, e2]

theorem paren_inj {s t : Str} {n m : Nat}
    (h : paren s (Nat.toDigits 10 n) = paren t (Nat.toDigits 10 m)) : s = t ∧ n = m := by
  unfold paren at h
  have h := List.append_cancel_right h
  have key : ∀ (s : Str) (n : Nat), ((s ++ " (".toList ++ Nat.toDigits 10 n).reverse.takeWhile (· ≠ '(')).reverse =
      Nat.toDigits 10 n := by
    intro s n
    rw [List.reverse_append, List.takeWhile_append_of_pos]
    · have : (s ++ " (".toList).reverse = '(' :: ' ' :: s.reverse := by
        rw [List.reverse_append]; rfl
      rw [this, List.takeWhile_cons_of_neg (by simp), List.append_nil, List.reverse_reverse]
    · intro c hc
      rw [List.mem_reverse] at hc
      simpa using digit_ne (d := '(') (by decide) hc
  have e := key s n
  rw [h, key t m] at e
  rw [e] at h
  refine ⟨List.append_cancel_right (List.append_cancel_right h), ?_⟩
  rw [← Nat.ofDigitChars_toDigits (b := 10) (n := n) (by norm_num) (by norm_num), ← e,
    Nat.ofDigitChars_toDigits (by norm_num) (by norm_num)]

theorem numberAll_mem {bs : List Str} : ∀ {s : Namer}, Contig (s.previous :: bs) → ∀ x ∈ numberAll s bs,
    ∃ b ∈ bs, (x = b ∧ b ≠ s.previous) ∨
      ∃ k, x = paren b (Nat.toDigits 10 k) ∧ (b = s.previous → s.counter < k) := by
  induction bs with
  | nil => intro s _ x hx; simp [numberAll] at hx
  | cons b bs ih =>
    intro s hc x hx
    rw [numberAll] at hx
    by_cases hb : b = s.previous
    · rcases List.mem_cons.1 hx with rfl | hx
      · exact ⟨b, by simp, .inr ⟨s.counter + 1, by unfold number; rw [if_pos hb], fun _ => by omega⟩⟩
      · unfold number at hx
        rw [if_pos hb] at hx
        obtain ⟨b', hb', h⟩ := ih (by rw [← hb] at hc ⊢; exact hc.tail) x hx
        refine ⟨b', by simp [hb'], ?_⟩
        rcases h with h | ⟨k, e, h⟩
        · exact .inl h
        · exact .inr ⟨k, e, fun e' => by have := h e'; simp at this; omega⟩
    · have hn := hc.head (Ne.symm hb)
      rcases List.mem_cons.1 hx with rfl | hx
      · exact ⟨b, by simp, .inl ⟨by unfold number; rw [if_neg hb], hb⟩⟩
      · unfold number at hx
        rw [if_neg hb] at hx
        obtain ⟨b', hb', h⟩ := ih (by simpa using hc.tail) x hx
        have hne : b' ≠ s.previous := by rintro rfl; exact hn (by simp [hb'])
        refine ⟨b', by simp [hb'], ?_⟩
        rcases h with h | ⟨k, e, h⟩
        · exact .inl ⟨h.1, hne⟩
        · exact .inr ⟨k, e, fun e' => absurd e' hne⟩

theorem numberAll_nodup {bs : List Str} {m : Nat} (ho : ∀ b ∈ bs, opens b = m) :
    ∀ {s : Namer}, Contig (s.previous :: bs) → (numberAll s bs).Nodup := by
  induction bs with
  | nil => intro s _; simp [numberAll]
  | cons b bs ih =>
    intro s hc
    have ho' : ∀ b ∈ bs, opens b = m := fun b h => ho b (by simp [h])
    have hob := ho b (by simp)
    rw [numberAll, List.nodup_cons]
    by_cases hb : b = s.previous
    · unfold number
      rw [if_pos hb]
      have hc' : Contig (({ s with counter := s.counter + 1 } : Namer).previous :: bs) := by
        rw [← hb] at hc; exact (by simpa [← hb] using hc.tail)
      refine ⟨?_, ih ho' hc'⟩
      intro hm
      obtain ⟨b', hb', ⟨e, -⟩ | ⟨k, e, h⟩⟩ := numberAll_mem hc' _ hm
      · have := opens_paren b (s.counter + 1)
        dsimp only at e
        rw [e, ho' b' hb', hob] at this
        omega
      · obtain ⟨e1, e2⟩ := paren_inj e
        have := h (e1 ▸ hb)
        simp at this
        omega
    · unfold number
      rw [if_neg hb]
      have hc' : Contig (({ previous := b, counter := 0 } : Namer).previous :: bs) := hc.tail
      refine ⟨?_, ih ho' hc'⟩
      intro hm
      obtain ⟨b', hb', ⟨e, h⟩ | ⟨k, e, h⟩⟩ := numberAll_mem hc' _ hm
      · exact h e.symm
      · have := opens_paren b' k
        dsimp only at e
        rw [← e, ho' b' hb', hob] at this
        omega

theorem opens_age (d : Int) : opens (age d) = 0 := by
  have dig : ∀ n, (Nat.toDigits 10 n).count '(' = 0 := by
    intro n
    rw [List.count_eq_zero]
    intro h
    exact digit_ne (d := '(') (by decide) h rfl
  have hago : ∀ n u, List.count '(' u = 0 → opens (ago n u) = 0 := by
    intro n u hu
    unfold opens ago
    rw [List.count_append, List.count_append, List.count_append, List.count_append, dig, hu]
    by_cases hn : n = 1
    · rw [if_neg (not_not.2 hn)]; decide
    · rw [if_pos hn]; decide
  rw [age_text]
  unfold text
  split
  · decide
  all_goals exact hago _ _ (by decide)

theorem age_ne (d : Int) : age d ≠ [] := by
  have hago : ∀ n u, ago n u ≠ [] := by
    intro n u h
    have := congrArg List.length h
    unfold ago at this
    simp at this
  rw [age_text]
  unfold text
  split
  · decide
  all_goals exact hago _ _

theorem base_ne (now : Int) (r : Run) : base now r ≠ [] := by
  unfold base
  split_ifs
  · unfold paren; simp
  · exact age_ne _

/-- The texts with hashes decide the ages and the hashes. -/
theorem paren_split {s t x y : Str} (hs : opens s = 0) (ht : opens t = 0) (h : paren s x = paren t y) :
    s = t ∧ x = y := by
  have key : ∀ s x : Str, opens s = 0 → (paren s x).takeWhile (· ≠ '(') = s ++ [' '] := by
    intro s x hs
    have hns : '(' ∉ s := by rw [← List.count_eq_zero]; exact hs
    unfold paren
    have : (" (".toList : Str) = [' ', '('] := rfl
    rw [this, show s ++ [' ', '('] ++ x ++ ")".toList = (s ++ [' ']) ++ '(' :: (x ++ ")".toList) by simp,
      List.takeWhile_append_of_pos, List.takeWhile_cons_of_neg (by simp), List.append_nil]
    intro c hc
    rcases List.mem_append.1 hc with hc | hc
    · have : c ≠ '(' := by rintro rfl; exact hns hc
      simpa using this
    · simp at hc; subst hc; decide
  have e := key s x hs
  rw [h, key t y ht] at e
  have e := List.append_cancel_right e
  subst e
  refine ⟨rfl, ?_⟩
  unfold paren at h
  exact List.append_cancel_left (List.append_cancel_right h)

theorem contig_base {now : Int} {rs : List Run} (hs : (rs.map Run.timestamp).Pairwise (· ≤ ·))
    (hc : Contig (rs.map Run.hash)) (hh : (∀ r ∈ rs, r.hash = []) ∨ (∀ r ∈ rs, r.hash ≠ [])) :
    Contig (rs.map (base now)) := by
  intro i k j x hik hkj hi hj
  rw [List.getElem?_map] at hi hj ⊢
  obtain ⟨ri, ei, hi⟩ := Option.map_eq_some_iff.1 hi
  obtain ⟨rj, ej, hj⟩ := Option.map_eq_some_iff.1 hj
  obtain ⟨lj, -⟩ := List.getElem?_eq_some_iff.1 ej
  have ek : rs[k]? = some rs[k] := List.getElem?_eq_getElem (by omega)
  rw [ek]
  generalize hrk : rs[k] = rk at *
  have mono : ∀ (a b : Nat) (ra rb : Run), a < b → rs[a]? = some ra → rs[b]? = some rb → ra.timestamp ≤ rb.timestamp := by
    intro a b ra rb hab ha hb
    obtain ⟨la, ea⟩ := List.getElem?_eq_some_iff.1 ha
    obtain ⟨lb, eb⟩ := List.getElem?_eq_some_iff.1 hb
    have := List.pairwise_iff_getElem.1 hs a b (by simpa using la) (by simpa using lb) hab
    simpa [ea, eb] using this
  have m1 := mono i k ri rk hik ei ek
  have m2 := mono k j rk rj hkj ek ej
  have mem : ∀ a (ra : Run), rs[a]? = some ra → ra ∈ rs := fun a ra h => List.mem_of_getElem? h
  have main : ∀ _ : age (now - ri.timestamp) = age (now - rj.timestamp),
      age (now - rk.timestamp) = age (now - ri.timestamp) := by
    intro h
    rw [age_between (a := now - rj.timestamp) (b := now - rk.timestamp) (c := now - ri.timestamp)
      (by omega) (by omega) h.symm, h]
  rw [Option.map_some]
  congr 1
  rw [← hi]
  rw [← hj] at hi
  rcases hh with hh | hh
  · unfold base at hi ⊢
    have zi := hh ri (mem i ri ei)
    have zj := hh rj (mem j rj ej)
    have zk := hh rk (mem k rk ek)
    rw [if_neg (by simp [zi]), if_neg (by simp [zj])] at hi
    rw [if_neg (by simp [zk]), if_neg (by simp [zi]), main hi]
  · unfold base at hi ⊢
    rw [if_pos (hh ri (mem i ri ei)), if_pos (hh rj (mem j rj ej))] at hi
    rw [if_pos (hh rk (mem k rk ek)), if_pos (hh ri (mem i ri ei))]
    obtain ⟨e1, e2⟩ := paren_split (opens_age _) (opens_age _) hi
    have := hc i k j ri.hash hik hkj (by simp [ei]) (by simp [ej, e2])
    rw [List.getElem?_map, ek, Option.map_some, Option.some.injEq] at this
    rw [main e1, this]

/-- C71: the names of the runs are pairwise distinct when the runs are in the order of time, either
no run belongs to a commit or each run does, and the runs of a commit follow each other.
Partial: runs with and without commits together, or runs of a commit around a run of
another, may share a name (`C71_mixed_wrong`, `C71_alternate_wrong`). -/
theorem C71_distinct_partial (now : Int) (rs : List Run) (ns : List Str)
    (hs : (rs.map Run.timestamp).Pairwise (· ≤ ·)) (hc : Contig (rs.map Run.hash))
    (hh : (∀ r ∈ rs, r.hash = []) ∨ (∀ r ∈ rs, r.hash ≠ [] ∧ '(' ∉ r.hash))
    (h : names now rs = .ok ns) : ns.Nodup := by
  unfold names at h
  split_ifs at h with hn
  injection h with h
  subst h
  have hopens : ∃ m, ∀ b ∈ rs.map (base now), opens b = m := by
    rcases hh with hh | hh
    · refine ⟨0, ?_⟩
      intro b hb
      obtain ⟨r, hr, rfl⟩ := List.mem_map.1 hb
      unfold base
      rw [if_neg (by simp [hh r hr])]
      exact opens_age _
    · refine ⟨1, ?_⟩
      intro b hb
      obtain ⟨r, hr, rfl⟩ := List.mem_map.1 hb
      have hz := opens_age (now - r.timestamp)
      have hz' := List.count_eq_zero.2 (hh r hr).2
      unfold base
      rw [if_pos (hh r hr).1]
      unfold opens paren at *
      rw [List.count_append, List.count_append, List.count_append, hz, hz']
      decide
  obtain ⟨m, hm⟩ := hopens
  apply numberAll_nodup hm
  have hcb := contig_base (now := now) hs hc (hh.imp id fun h r hr => (h r hr).1)
  intro i k j x hik hkj hi hj
  rcases i with _ | i
  · exfalso
    simp at hi
    subst hi
    obtain ⟨j, rfl⟩ : ∃ j', j = j' + 1 := ⟨j - 1, by omega⟩
    rw [List.getElem?_cons_succ, List.getElem?_map] at hj
    obtain ⟨r, -, e⟩ := Option.map_eq_some_iff.1 hj
    exact base_ne now r e
  · obtain ⟨k, rfl⟩ : ∃ k', k = k' + 1 := ⟨k - 1, by omega⟩
    obtain ⟨j, rfl⟩ : ∃ j', j = j' + 1 := ⟨j - 1, by omega⟩
    rw [List.getElem?_cons_succ] at hi hj ⊢
    exact hcb i k j x (by omega) (by omega) hi hj

/-- Each row gets a name. -/
theorem numberAll_length (bs : List Str) : ∀ s, (numberAll s bs).length = bs.length := by
  induction bs with
  | nil => intro s; rfl
  | cons b bs ih => intro s; simp [numberAll, ih]

theorem insert_lookup (d : List (Str × Int)) (k k' : Str) (v : Int) :
    (insert d k v).lookup k' = if k' = k then some v else d.lookup k' := by
  induction d with
  | nil =>
    by_cases h : k' = k
    · simp [insert, h]
    · simp [insert, h, List.lookup, beq_eq_false_iff_ne.2 h]
  | cons p d ih =>
    obtain ⟨a, b⟩ := p
    unfold insert
    by_cases hk : k = a
    · subst hk
      rw [if_pos rfl]
      by_cases h : k' = k
      · simp [h, List.lookup]
      · simp [h, List.lookup, beq_eq_false_iff_ne.2 h]
    · rw [if_neg hk]
      by_cases h : k' = a
      · subst h
        rw [if_neg (fun e => hk e.symm)]
        simp [List.lookup]
      · simp only [List.lookup, beq_eq_false_iff_ne.2 h, ih]

theorem selection_fold (rows : List (Str × Int)) : ∀ d : List (Str × Int), (rows.map Prod.fst).Nodup →
    ∀ k, (rows.foldl (fun d r => insert d r.1 r.2) d).lookup k =
      match rows.lookup k with
      | some v => some v
      | none => d.lookup k := by
  induction rows with
  | nil => intro d _ k; rfl
  | cons p rows ih =>
    obtain ⟨a, b⟩ := p
    intro d hn k
    rw [List.map_cons, List.nodup_cons] at hn
    rw [List.foldl_cons, ih _ hn.2]
    by_cases h : k = a
    · subst h
      have hz : rows.lookup k = none := by
        rw [List.lookup_eq_none_iff]
        intro p hp
        rw [bne_iff_ne]
        rintro rfl
        exact hn.1 (List.mem_map.2 ⟨p, hp, rfl⟩)
      rw [hz, insert_lookup, if_pos rfl]
      simp [List.lookup]
    · simp only [List.lookup, beq_eq_false_iff_ne.2 h, insert_lookup, if_neg h]

/-- C71: when the names are distinct, selecting the name of a run gives this run. -/
theorem C71_select (ns : List Str) (ts : List Int) (hn : ns.Nodup) (hl : ns.length = ts.length)
    (i : Nat) (n : Str) (t : Int) (h1 : ns[i]? = some n) (h2 : ts[i]? = some t) :
    (selection (ns.zip ts)).lookup n = some t := by
  unfold selection
  rw [selection_fold _ _ (by rw [List.map_fst_zip (by omega)]; exact hn)]
  have key : ∀ (ns : List Str) (ts : List Int) (i : Nat), ns.Nodup → ns[i]? = some n → ts[i]? = some t →
      (ns.zip ts).lookup n = some t := by
    intro ns
    induction ns with
    | nil => intro ts i _ h _; simp at h
    | cons a ns ih =>
      intro ts i hn h1 h2
      rcases ts with _ | ⟨b, ts⟩
      · simp at h2
      rw [List.nodup_cons] at hn
      rcases i with _ | i
      · simp at h1 h2
        subst h1 h2
        simp
      · simp at h1 h2
        have : n ≠ a := by rintro rfl; exact hn.1 (List.mem_of_getElem? h1)
        rw [List.zip_cons_cons]
        simp only [List.lookup, beq_eq_false_iff_ne.2 this]
        exact ih ts i hn.2 h1 h2
  rw [key ns ts i hn h1 h2]

/-- C71: two rows with the same timestamp stop the report. -/
theorem C71_same_time_wrong (now : Int) (r s : Run) (rs : List Run) (h : r.timestamp = s.timestamp) :
    names now (r :: s :: rs) = .exit := by
  unfold names
  rw [if_neg]
  simp [h]

/-- C71: a run of a commit between two runs that are not: two names are equal, and the first run
cannot be selected, whatever the name chosen. -/
theorem C71_mixed_wrong :
    let rs : List Run := [{ timestamp := 100 }, { timestamp := 101, hash := "abcdef0".toList }, { timestamp := 102 }]
    names 110 rs = .ok ["Less than a minute ago".toList, "Less than a minute ago (abcdef0)".toList,
      "Less than a minute ago".toList] ∧
    ∀ ns, names 110 rs = .ok ns → ∀ n, (selection (ns.zip (rs.map Run.timestamp))).lookup n ≠ some 100 := by
  intro rs
  have e : names 110 rs = .ok ["Less than a minute ago".toList, "Less than a minute ago (abcdef0)".toList,
      "Less than a minute ago".toList] := by decide +kernel
  refine ⟨e, ?_⟩
  intro ns h n
  rw [e] at h
  injection h with h
  subst h
  have e : selection ((["Less than a minute ago".toList, "Less than a minute ago (abcdef0)".toList,
      "Less than a minute ago".toList] : List Str).zip (rs.map Run.timestamp)) =
      [("Less than a minute ago".toList, 102), ("Less than a minute ago (abcdef0)".toList, 101)] := by
    decide +kernel
  rw [e]
  simp only [List.lookup]
  split <;> (try split) <;> simp

/-- C71: two commits, tested in turn within an hour, some weeks ago. -/
theorem C71_alternate_wrong :
    names 3000000 [{ timestamp := 0, hash := "aaaaaaa".toList }, { timestamp := 60, hash := "bbbbbbb".toList },
      { timestamp := 120, hash := "aaaaaaa".toList }] =
    .ok ["1 month ago (aaaaaaa)".toList, "1 month ago (bbbbbbb)".toList, "1 month ago (aaaaaaa)".toList] := by
  decide +kernel

-- Three runs outside a repository: two of the same hour, and one of another.
example : names 100000 [{ timestamp := 86000 }, { timestamp := 87000 }, { timestamp := 91000 }] =
    .ok ["3 hours ago".toList, "3 hours ago (1)".toList, "2 hours ago".toList] := by decide +kernel

-- The hypotheses of `C71_distinct_partial` hold of them.
example (ns : List Str) (h : names 100000 [{ timestamp := 86000 }, { timestamp := 87000 }, { timestamp := 91000 }] =
    .ok ns) : ns.Nodup :=
  C71_distinct_partial _ _ _ (by decide)
    (contig_const (a := []) (by simp))
    (.inl (by simp)) h

example : (selection [("a".toList, 1), ("b".toList, 2)]).lookup "b".toList = some 2 := by decide +kernel

end Verif.Ci.Report
