import Mathlib.Tactic.Linarith
import Verif.Wrapper.Dispatch

/-! # C30, C31: chaining of backends, vector operations -/

namespace Verif.Wrapper
open Verif

variable {σ κ : Type}

theorem callFrom_chain (ctx : Nat → κ) (o : OpId) (x : List (BitVec 64)) (bs : List (Backend σ κ)) : ∀ (i : Nat) (c : Option (BitVec 64) × σ),
    ∃ (js : List Nat) (cs : Nat → Option (BitVec 64) × σ), js.Pairwise (· < ·) ∧ (∀ j ∈ js, i ≤ j) ∧
      (∀ j, i + j ∈ js ↔ ∃ b, bs[j]? = some b ∧ (b o).isSome) ∧ cs 0 = c ∧
      (∀ (k : Nat) (hk : k < js.length), ∃ b f, bs[js[k] - i]? = some b ∧ b o = some f ∧ cs (k + 1) = f x (cs k).1 (ctx js[k]) (cs k).2) ∧
      callFrom ctx o x i bs c = cs js.length := by
  induction bs with
  | nil => intro i c; exact ⟨[], fun _ => c, by simp, by simp, by simp, rfl, by simp, rfl⟩
  | cons b bs ih =>
    intro i c
    rcases hb : b o with _ | f
    · obtain ⟨js, cs, h1, h2, h3, h4, h5, h6⟩ := ih (i + 1) c
      refine ⟨js, cs, h1, fun j hj => by have := h2 j hj; omega, ?_, h4, ?_, ?_⟩
      · intro j
        cases j with
        | zero =>
          constructor
          · intro h; have := h2 _ h; omega
          · rintro ⟨b', e, hs⟩; simp at e; subst e; rw [hb] at hs; simp at hs
        | succ j =>
          have := h3 j
          rw [show i + (j + 1) = i + 1 + j by omega, this]; simp
      · intro k hk
        have hge := h2 _ (List.getElem_mem hk)
        obtain ⟨b', f', e1, e2, e3⟩ := h5 k hk
        refine ⟨b', f', ?_, e2, e3⟩
        rw [show js[k] - i = (js[k] - (i + 1)) + 1 by omega]; simpa using e1
      · simp only [callFrom, hb]; exact h6
    · obtain ⟨js, cs, h1, h2, h3, h4, h5, h6⟩ := ih (i + 1) (f x c.1 (ctx i) c.2)
      refine ⟨i :: js, fun k => match k with | 0 => c | k + 1 => cs k, ?_, ?_, ?_, rfl, ?_, ?_⟩
      · exact List.pairwise_cons.2 ⟨fun j hj => by have := h2 j hj; omega, h1⟩
      · intro j hj
        rcases List.mem_cons.1 hj with rfl | h
        · exact le_rfl
        · have := h2 j h; omega
      · intro j
        cases j with
        | zero => simp [hb]
        | succ j =>
          have := h3 j
          rw [List.mem_cons, show i + (j + 1) = i + 1 + j by omega, this]; simp; omega
      · intro k hk
        cases k with
        | zero => exact ⟨b, f, by simp, hb, by simpa using h4⟩
        | succ k =>
          have hk' : k < js.length := by simpa using hk
          have hge := h2 _ (List.getElem_mem hk')
          obtain ⟨b', f', e1, e2, e3⟩ := h5 k hk'
          refine ⟨b', f', ?_, e2, by simpa using e3⟩
          simp only [List.getElem_cons_succ]
          rw [show js[k] - i = (js[k] - (i + 1)) + 1 by omega]; simpa using e1
      · simp only [callFrom, hb]; exact h6

/-- **C30, chaining.**  The wrapper of an operation calls exactly the loaded backends that
implement it, in the order in which they were loaded, each with the operands `x` of the
program, its own context and the result variable left by the previous one; the program
receives what the last one leaves. -/
theorem C30_chain (bs : List (Backend σ κ)) (ctx : Nat → κ) (o : OpId) (x : List (BitVec 64)) (s : σ) :
    ∃ (js : List Nat) (cs : Nat → Option (BitVec 64) × σ), js.Pairwise (· < ·) ∧
      (∀ j, j ∈ js ↔ ∃ b, bs[j]? = some b ∧ (b o).isSome) ∧ cs 0 = (initial o, s) ∧
      (∀ (k : Nat) (hk : k < js.length), ∃ b f, bs[js[k]]? = some b ∧ b o = some f ∧ cs (k + 1) = f x (cs k).1 (ctx js[k]) (cs k).2) ∧
      scalar bs ctx o x s = cs js.length := by
  obtain ⟨js, cs, h1, -, h3, h4, h5, h6⟩ := callFrom_chain ctx o x bs 0 (initial o, s)
  exact ⟨js, cs, h1, by simpa using h3, h4, by simpa using h5, h6⟩

/-- **C30, the last backend decides.**  If `bs₁ ++ b :: bs₂` are loaded, `b` implements the operation
by `f` which overwrites the result variable, and no backend of `bs₂` implements it, the
result is that of `f` on the program's operands, in the state the previous backends leave. -/
theorem C30_last (bs₁ bs₂ : List (Backend σ κ)) (b : Backend σ κ) (ctx : Nat → κ) (o : OpId) (x : List (BitVec 64)) (s : σ)
    (f : Impl σ κ) (hf : b o = some f) (hw : ∀ c c' s, f x c (ctx bs₁.length) s = f x c' (ctx bs₁.length) s)
    (h2 : ∀ b' ∈ bs₂, b' o = none) :
    scalar (bs₁ ++ b :: bs₂) ctx o x s = f x none (ctx bs₁.length) (scalar bs₁ ctx o x s).2 := by
  have tail : ∀ bs : List (Backend σ κ), (∀ b' ∈ bs, b' o = none) → ∀ i c, callFrom ctx o x i bs c = c := by
    intro bs
    induction bs with
    | nil => intro _ i c; rfl
    | cons b' bs ih => intro h i c; simp only [callFrom, h b' (by simp)]; exact ih (fun b'' hb => h b'' (by simp [hb])) _ _
  have app : ∀ bs i c, callFrom ctx o x i (bs ++ b :: bs₂) c =
      f x (callFrom ctx o x i bs c).1 (ctx (i + bs.length)) (callFrom ctx o x i bs c).2 := by
    intro bs
    induction bs with
    | nil => intro i c; simp only [List.nil_append, callFrom, hf]; rw [tail _ h2]; simp
    | cons b' bs ih =>
      intro i c
      simp only [List.cons_append, callFrom, List.length_cons]
      rw [show i + (bs.length + 1) = (i + 1) + bs.length by omega]
      cases b' o <;> exact ih _ _
  unfold scalar
  rw [app]
  simp only [Nat.zero_add]
  exact hw _ _ _

/-- **C30, never undefined.**  After successful start-up checks, every operation the compiler emits
is implemented by some loaded backend, so that if backends write the result variable the
program receives a value one of them wrote. -/
theorem C30_defined (fl : Flags) (bs : List (Backend σ κ)) (hok : checkAll fl bs = .ok ()) (o : OpId) (ho : emitted fl o = true)
    (ctx : Nat → κ) (x : List (BitVec 64)) (s : σ) (W : BitVec 64 → Prop)
    (hw : ∀ b ∈ bs, ∀ f, b o = some f → ∀ c i s', ∃ v, (f x c (ctx i) s').1 = some v ∧ W v) :
    ∃ v, (scalar bs ctx o x s).1 = some v ∧ W v := by
  have himp : implemented bs o = true := by
    unfold checkAll at hok
    split at hok
    · rename_i h
      refine List.all_eq_true.1 h o ?_
      unfold required
      revert ho
      unfold emitted
      rcases o with ⟨a, p⟩ | p | p | _
      · cases a <;> cases p <;> simp
      · cases p <;> intro ho <;> simp [ho]
      · cases p <;> intro ho <;> simp [ho]
      · intro ho; simp [ho]
    · cases hok
  obtain ⟨b0, hb0, hi0⟩ := List.any_eq_true.1 himp
  obtain ⟨js, cs, -, h2, -, h4, h5⟩ := C30_chain bs ctx o x s
  obtain ⟨j, hj, rfl⟩ := List.getElem_of_mem hb0
  have hjm : j ∈ js := (h2 j).2 ⟨bs[j], by simp [hj], hi0⟩
  have hpos : 0 < js.length := List.length_pos_of_mem hjm
  obtain ⟨b, f, e1, e2, e3⟩ := h4 (js.length - 1) (by omega)
  rw [show js.length - 1 + 1 = js.length by omega] at e3
  rw [h5, e3]
  exact hw b (List.mem_of_getElem? e1) f e2 _ _ _

/-- **C30, nobody answers.**  An arithmetic operation or fma that no loaded backend implements
gives a NaN of its type: exponent field all ones, mantissa field not zero; the state is
not changed. -/
theorem C30_nan (bs : List (Backend σ κ)) (ctx : Nat → κ) (o : OpId) (p : Prec)
    (ho : o = .fma p ∨ ∃ a, o = .arith a p) (h : ∀ b ∈ bs, b o = none) (x : List (BitVec 64)) (s : σ) :
    ∃ v : BitVec 64, scalar bs ctx o x s = (some v, s) ∧
      (p = .float → v.toNat < 2 ^ 32 ∧ v.toNat / 2 ^ 23 % 2 ^ 8 = 255 ∧ v.toNat % 2 ^ 23 ≠ 0) ∧
      (p = .double → v.toNat / 2 ^ 52 % 2 ^ 11 = 2047 ∧ v.toNat % 2 ^ 52 ≠ 0) := by
  have tail : ∀ bs : List (Backend σ κ), (∀ b' ∈ bs, b' o = none) → ∀ i c, callFrom ctx o x i bs c = c := by
    intro bs
    induction bs with
    | nil => intro _ i c; rfl
    | cons b' bs ih => intro h i c; simp only [callFrom, h b' (by simp)]; exact ih (fun b'' hb => h b'' (by simp [hb])) _ _
  unfold scalar
  rw [tail bs h]
  have hi : initial o = some (nan p) := by
    rcases ho with rfl | ⟨a, rfl⟩ <;> rfl
  refine ⟨nan p, by rw [hi], ?_⟩
  clear hi ho
  cases p <;> decide

/-- Comparisons start from an uninitialised variable: were no backend to implement them the
program would read an indeterminate value; the check at start-up prevents it, as only the
options that make the compiler emit comparisons need it. -/
theorem C30_cmp_without_backend (ctx : Nat → κ) (p : Prec) (x : List (BitVec 64)) (s : σ) :
    (scalar [fun o => match o with | .arith _ _ => some (fun _ _ _ s => (some 0, s)) | _ => none] ctx (.cmp p) x s).1 = none := rfl

/-- Two backends, the second overrides the first but both see the operands. -/
example : let b1 : Backend (List (List (BitVec 64))) Nat := fun _ => some fun x _ _ s => (some 1, s ++ [x])
    let b2 : Backend (List (List (BitVec 64))) Nat := fun _ => some fun x _ k s => (some (BitVec.ofNat 64 k), s ++ [x])
    scalar [b1, b2] (fun i => i + 6) (.arith .mul .double) [3, 4] [] = (some 7, [[3, 4], [3, 4]]) := by decide

/-! ## Vectors -/

/-- **C31.**  A vector wrapper computes lane `i` by the scalar wrapper on lanes `i` of its
operands, in increasing order of `i`, each lane starting from the state the previous one
left. -/
theorem C31_lanes {α γ : Type} (f : α → α → σ → γ × σ) (n : Nat) (a b : Nat → α) (s : σ) :
    (vector f n a b s).1.length = n ∧ ∃ st : Nat → σ, st 0 = s ∧ st n = (vector f n a b s).2 ∧
      ∀ i, i < n → (vector f n a b s).1[i]? = some (f (a i) (b i) (st i)).1 ∧ st (i + 1) = (f (a i) (b i) (st i)).2 := by
  have gen : ∀ k i s, (lanes f a b k i s).1.length = k ∧ ∃ st : Nat → σ, st 0 = s ∧ st k = (lanes f a b k i s).2 ∧
      ∀ j, j < k → (lanes f a b k i s).1[j]? = some (f (a (i + j)) (b (i + j)) (st j)).1 ∧ st (j + 1) = (f (a (i + j)) (b (i + j)) (st j)).2 := by
    intro k
    induction k with
    | zero => intro i s; exact ⟨rfl, fun _ => s, rfl, rfl, by omega⟩
    | succ k ih =>
      intro i s
      obtain ⟨h1, st, h2, h3, h4⟩ := ih (i + 1) (f (a i) (b i) s).2
      refine ⟨by simp [lanes, h1], fun j => match j with | 0 => s | j + 1 => st j, rfl, h3, ?_⟩
      intro j hj
      cases j with
      | zero => exact ⟨by simp [lanes], by simpa using h2⟩
      | succ j =>
        have := h4 j (by omega)
        rw [show i + 1 + j = i + (j + 1) by omega] at this
        exact ⟨by simpa [lanes] using this.1, this.2⟩
  have := gen n 0 s
  simp only [Nat.zero_add] at this
  exact this

/-- A stateless scalar operation gives the element-wise operation. -/
theorem C31_stateless {α γ : Type} (g : α → α → γ) (n : Nat) (a b : Nat → α) (s : σ) :
    vector (fun x y s => (g x y, s)) n a b s = ((List.range n).map fun i => g (a i) (b i), s) := by
  obtain ⟨h1, st, h2, h3, h4⟩ := C31_lanes (fun x y s => (g x y, s)) n a b s
  have hst : ∀ i, i ≤ n → st i = s := by
    intro i
    induction i with
    | zero => intro _; exact h2
    | succ i ih => intro hi; rw [(h4 i (by omega)).2]; exact ih (by omega)
  have e2 : (vector (fun x y s => (g x y, s)) n a b s).2 = s := by rw [← h3]; exact hst n le_rfl
  refine Prod.ext ?_ e2
  apply List.ext_getElem?
  intro i
  by_cases hi : i < n
  · rw [(h4 i hi).1]; simp [hi]
  · rw [List.getElem?_eq_none (by omega), List.getElem?_eq_none (by simp; omega)]

example : vector (fun (x y : Nat) (s : Nat) => (x + y * s, s + 1)) 4 (fun i => i) (fun i => 10 * i) 1 = ([0, 21, 62, 123], 5) := by decide

end Verif.Wrapper
