import Verif.Ddtool.Model
import Mathlib.Tactic.Ring
import Mathlib.Data.List.Basic
import Mathlib.Data.List.Nodup
import Mathlib.Data.List.Forall2

/-!
# Splitting a list of deltas (C43)
-/

namespace Verif.Ddtool

variable {α : Type} [DecidableEq α]

/-- The loop only looks at what is left of the list. -/
theorem splitLoop_drop (c : List α) (n : Nat) (r i start : Nat) (h : n = i + r) :
    splitLoop c n r i start = splitLoop (c.drop start) r r 0 0 := by
  induction r generalizing c n i start with
  | zero => rfl
  | succ r ih =>
    have e1 : n - i = r + 1 := by omega
    simp only [splitLoop, e1, List.drop_zero, Nat.sub_zero, List.length_drop, Nat.zero_add]
    congr 1
    rw [ih _ _ _ _ (by omega), ih (c.drop start) (r + 1) 1 _ (by omega), List.drop_drop]

theorem split_zero (c : List α) : split c 0 = [] := rfl

/-- Splitting in `n + 1`: one chunk, then the rest in `n`. -/
theorem split_succ (c : List α) (n : Nat) :
    split c (n + 1) =
      c.take (c.length / (n + 1)) :: split (c.drop (c.length / (n + 1))) n := by
  have hle : c.length / (n + 1) ≤ c.length := Nat.div_le_self _ _
  unfold split
  rw [splitLoop]
  simp only [List.drop_zero, Nat.sub_zero, Nat.zero_add]
  congr 1
  rw [splitLoop_drop c (n + 1) n 1 _ (by omega), List.length_take, Nat.min_eq_left hle]

theorem split_length (c : List α) (n : Nat) : (split c n).length = n := by
  induction n generalizing c with
  | zero => rfl
  | succ n ih => rw [split_succ, List.length_cons, ih]

theorem split_flatten (c : List α) (n : Nat) (hn : 1 ≤ n) : (split c n).flatten = c := by
  induction n generalizing c with
  | zero => omega
  | succ n ih =>
    rw [split_succ, List.flatten_cons]
    rcases Nat.eq_zero_or_pos n with rfl | hpos
    · simp [split_zero]
    · rw [ih _ hpos, List.take_append_drop]

/-- Chunk sizes: with `q n ≤ |c| ≤ (q+1) n` every chunk has `q` or `q + 1` deltas. -/
theorem split_sizes (q : Nat) (n : Nat) : ∀ c : List α,
    q * n ≤ c.length → c.length ≤ (q + 1) * n →
      ∀ s ∈ split c n, s.length = q ∨ s.length = q + 1 := by
  induction n with
  | zero => intro c _ _ s hs; simp [split_zero] at hs
  | succ n ih =>
    intro c h1 h2 s hs
    rw [split_succ] at hs
    have hd : c.length / (n + 1) = q ∨ c.length / (n + 1) = q + 1 := by
      have a : q ≤ c.length / (n + 1) := (Nat.le_div_iff_mul_le (by omega)).2 h1
      have b : c.length / (n + 1) ≤ q + 1 :=
        Nat.div_le_of_le_mul (by rw [Nat.mul_comm]; exact h2)
      omega
    have hle : c.length / (n + 1) ≤ c.length := Nat.div_le_self _ _
    have hmul : c.length / (n + 1) * (n + 1) ≤ c.length := Nat.div_mul_le_self _ _
    have hlt : c.length < (c.length / (n + 1) + 1) * (n + 1) := by
      have := Nat.lt_div_mul_add (a := c.length) (b := n + 1) (by omega)
      rw [Nat.add_mul]; omega
    rcases List.mem_cons.1 hs with rfl | hs
    · rw [List.length_take, Nat.min_eq_left hle]; exact hd
    · refine ih (c.drop (c.length / (n + 1))) ?_ ?_ s hs
      · rw [List.length_drop]
        rcases hd with e | e <;> rw [e] at hmul hlt ⊢
        · rw [Nat.mul_succ] at h1; omega
        · rw [Nat.mul_succ, Nat.add_mul] at hmul; omega
      · rw [List.length_drop]
        rcases hd with e | e <;> rw [e] at hmul hlt ⊢
        · rw [Nat.mul_succ] at hlt; omega
        · rw [Nat.mul_succ] at h2; omega

/-- C43: splitting `c` into `n` parts, `1 ≤ n ≤ |c|`, gives `n` non-empty lists whose
concatenation is `c` and whose sizes differ by at most one. -/
theorem C43_partition (c : List α) (n : Nat) (h1 : 1 ≤ n) (h2 : n ≤ c.length) :
    (split c n).length = n ∧ (split c n).flatten = c ∧ (∀ s ∈ split c n, s ≠ []) ∧
      ∀ s ∈ split c n, ∀ t ∈ split c n, s.length ≤ t.length + 1 := by
  have a : c.length / n * n ≤ c.length := Nat.div_mul_le_self _ _
  have b : c.length ≤ (c.length / n + 1) * n := by
    have := Nat.lt_div_mul_add (a := c.length) (b := n) (by omega)
    rw [Nat.add_mul]; omega
  have q : 1 ≤ c.length / n := (Nat.le_div_iff_mul_le (by omega)).2 (by omega)
  refine ⟨split_length c n, split_flatten c n h1, fun s hs e => ?_, fun s hs t ht => ?_⟩
  · have := split_sizes _ n c a b s hs
    rw [e] at this; simp at this; omega
  · have := split_sizes _ n c a b s hs
    have := split_sizes _ n c a b t ht
    omega

example : split [1, 2, 3, 4, 5, 6, 7] 3 = [[1, 2], [3, 4], [5, 6, 7]] := by decide

/-- Outside the range the parts still cover the list, but some are empty. -/
example : split [1, 2] 3 = [[], [1], [2]] := by decide

/-! Facts used by the searches. -/

theorem split_ne_nil (c : List α) (n : Nat) (h1 : 1 ≤ n) (h2 : n ≤ c.length) :
    ∀ s ∈ split c n, s ≠ [] := (C43_partition c n h1 h2).2.2.1

theorem split_self_singletons (c : List α) (h : 1 ≤ c.length) :
    split c c.length = c.map fun x => [x] := by
  have aux : ∀ n (c : List α), c.length = n → split c n = c.map fun x => [x] := by
    intro n
    induction n with
    | zero => intro c hc; rw [List.length_eq_zero_iff] at hc; subst hc; rfl
    | succ n ih =>
      intro c hc
      rw [split_succ, hc, Nat.div_self (by omega)]
      cases c with
      | nil => simp at hc
      | cons x xs => simp at hc; simp [ih xs hc]
  exact aux _ c rfl

theorem split_sublist (c : List α) (n : Nat) (hn : 1 ≤ n) {s : List α} (hs : s ∈ split c n) :
    s.Sublist c := by
  have := List.sublist_flatten_of_mem hs
  rwa [split_flatten c n hn] at this

theorem mem_listminus {c1 c2 : List α} {x : α} : x ∈ listminus c1 c2 ↔ x ∈ c1 ∧ x ∉ c2 := by
  simp [listminus]

theorem listminus_sublist (c1 c2 : List α) : (listminus c1 c2).Sublist c1 :=
  List.filter_sublist

/-- Lists with the same elements in the same master list are equal. -/
theorem filter_sub {c s : List α} (hc : c.Nodup) (hs : s.Sublist c) :
    c.filter (fun x => decide (x ∈ s)) = s := by
  induction hs with
  | slnil => rfl
  | @cons l1 l2 a h ih =>
    have ha := (List.nodup_cons.1 hc).1
    have : a ∉ l1 := fun hm => ha (h.subset hm)
    simp [this, ih (List.nodup_cons.1 hc).2]
  | @cons_cons l1 l2 a h ih =>
    have hnd := List.nodup_cons.1 hc
    simp only [List.mem_cons, true_or, decide_true, List.filter_cons_of_pos,
      List.cons.injEq, true_and]
    have : ∀ x ∈ l2, (decide (x = a ∨ x ∈ l1)) = decide (x ∈ l1) := by
      intro x hx
      have : x ≠ a := fun e => hnd.1 (e ▸ hx)
      simp [this]
    rw [List.filter_congr this, ih hnd.2]

theorem listminus_minus {cc s : List α} (hc : cc.Nodup) (hs : s.Sublist cc) :
    listminus cc (listminus cc s) = s := by
  rw [← filter_sub hc hs]
  unfold listminus
  apply List.filter_congr
  intro x hx
  simp only [List.mem_filter, decide_eq_true_eq, not_and, Decidable.not_not, hx, true_implies]

theorem length_listminus {c s : List α} (hc : c.Nodup) (hs : s.Sublist c) :
    (listminus c s).length + s.length = c.length := by
  have := List.length_eq_length_filter_add (l := c) (fun x => decide (x ∈ s))
  rw [filter_sub hc hs] at this
  rw [this, Nat.add_comm]
  congr 1
  unfold listminus
  congr 1
  apply List.filter_congr; intro x _; simp

/-- Removing chunk `i` leaves at least `n - 1` deltas. -/
theorem length_compl {c : List α} {n : Nat} (h1 : 1 ≤ n) (h2 : n ≤ c.length) (hc : c.Nodup)
    {s : List α} (hs : s ∈ split c n) :
    n - 1 ≤ (listminus c s).length ∧ (listminus c s).length < c.length := by
  have hl := length_listminus hc (split_sublist c n h1 hs)
  have hne := split_ne_nil c n h1 h2
  have hpos : 1 ≤ s.length := by
    have := hne s hs
    cases s with
    | nil => exact absurd rfl this
    | cons _ _ => simp
  refine ⟨?_, by omega⟩
  have hsum : ∀ (L : List (List α)), (∀ t ∈ L, t ≠ []) → s ∈ L →
      L.length - 1 + s.length ≤ L.flatten.length := by
    intro L
    induction L with
    | nil => intro _ h; cases h
    | cons t L ih =>
      intro hL hm
      have ht : 1 ≤ t.length := by
        have := hL t (by simp)
        cases t with
        | nil => exact absurd rfl this
        | cons _ _ => simp
      rw [List.flatten_cons, List.length_append, List.length_cons]
      rcases List.mem_cons.1 hm with rfl | hm
      · have : L.length ≤ L.flatten.length := by
          clear ih hm
          have hL' : ∀ t ∈ L, t ≠ [] := fun t ht => hL t (List.mem_cons_of_mem _ ht)
          clear hL ht
          induction L with
          | nil => simp
          | cons u L ih2 =>
            have hu : 1 ≤ u.length := by
              have := hL' u (by simp)
              cases u with
              | nil => exact absurd rfl this
              | cons _ _ => simp
            have := ih2 fun t ht => hL' t (List.mem_cons_of_mem _ ht)
            rw [List.flatten_cons, List.length_append, List.length_cons]; omega
        omega
      · have := ih (fun t ht => hL t (List.mem_cons_of_mem _ ht)) hm
        have : 1 ≤ L.length := List.length_pos_of_mem hm
        omega
  have := hsum _ hne hs
  rw [split_length, split_flatten c n h1] at this
  omega

/-- With two chunks, removing one leaves the other. -/
theorem compl_two {c : List α} (h2 : 2 ≤ c.length) (hc : c.Nodup) {s : List α}
    (hs : s ∈ split c 2) : listminus c s ∈ split c 2 := by
  have hf := split_flatten c 2 (by omega)
  have hl := split_length c 2
  match hsp : split c 2, hl with
  | [a, b], _ =>
    rw [hsp] at hf hs
    simp only [List.flatten_cons, List.flatten_nil, List.append_nil] at hf
    subst hf
    have hd := List.nodup_append'.1 hc
    have ha : listminus (a ++ b) a = b := by
      unfold listminus
      rw [List.filter_append, List.filter_eq_nil_iff.2 (by simp), List.nil_append,
        List.filter_eq_self.2]
      intro x hx
      simpa using fun hxa => hd.2.2 hxa hx
    have hb : listminus (a ++ b) b = a := by
      unfold listminus
      rw [List.filter_append, (List.filter_eq_nil_iff (l := b)).2 (by simp), List.append_nil,
        List.filter_eq_self.2]
      intro x hx
      simpa using fun hxb => hd.2.2 hx hxb
    simp only [List.mem_cons, List.not_mem_nil, or_false] at hs
    rcases hs with rfl | rfl
    · rw [ha]; simp
    · rw [hb]; simp

end Verif.Ddtool
