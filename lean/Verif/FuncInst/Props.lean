import Verif.FuncInst.Model
import Mathlib.Data.List.Basic
import Mathlib.Data.List.Nodup
import Mathlib.Tactic.Common
import Mathlib.Tactic.NormNum
import Mathlib.Tactic.Tauto

/-!
# Properties C66, C67, C68: the function instrumentation pass
-/

namespace Verif.FuncInst
open Verif

theorem bind_inv {α β : Type} {x : Outcome α} {f : α → Outcome β} {b : β} (h : (x >>= f) = .ok b) :
    ∃ a, x = .ok a ∧ f a = .ok b := by
  cases x with
  | ok a => exact ⟨a, rfl, h⟩
  | exit => exact absurd h (by simp)
  | ub => exact absurd h (by simp)

/-! ## C66: identifiers -/

/-- The number at the end of an identifier: what follows the last `/`. -/
def num (id : Str) : Nat := Nat.ofDigitChars 10 (id.reverse.takeWhile (· ≠ '/')).reverse 0

theorem digit_ne {n : Nat} {c : Char} (h : c ∈ Nat.toDigits 10 n) : c ≠ '/' := by
  have := Nat.isDigit_of_mem_toDigits (by norm_num) (by norm_num) h
  rintro rfl
  exact absurd this (by decide)

theorem num_ident (f p g : Str) (l n : Nat) : num (ident f p g l n) = n := by
  unfold num ident dec
  have : (f ++ "/".toList ++ p ++ "/".toList ++ g ++ "/".toList ++ Nat.toDigits 10 l ++ "/".toList ++
      Nat.toDigits 10 n).reverse =
      (Nat.toDigits 10 n).reverse ++ '/' :: (f ++ "/".toList ++ p ++ "/".toList ++ g ++ "/".toList ++
        Nat.toDigits 10 l).reverse := by
    rw [List.reverse_append, List.reverse_append (bs := "/".toList)]
    rfl
  rw [this, List.takeWhile_append_of_pos, List.takeWhile_cons_of_neg (by simp), List.append_nil,
    List.reverse_reverse, Nat.ofDigitChars_toDigits (by norm_num) (by norm_num)]
  intro c hc
  rw [List.mem_reverse] at hc
  simpa using digit_ne hc

theorem symbolOf_inj {a b : Str} (h : symbolOf a = symbolOf b) : a = b := by
  unfold symbolOf at h
  exact List.append_cancel_left (List.append_cancel_right h)

/-- The numbers of a list of hooks increase, from `a` included to `b` excluded. -/
def Numbered (a b : Nat) (hs : List Hook) : Prop :=
  a ≤ b ∧ (hs.map fun h => num h.id).Pairwise (· < ·) ∧ (∀ h ∈ hs, a ≤ num h.id ∧ num h.id < b) ∧
  ∀ h ∈ hs, h.symbol = symbolOf h.id

theorem Numbered.append {a b c : Nat} {l r : List Hook} (h1 : Numbered a b l) (h2 : Numbered b c r) :
    Numbered a c (l ++ r) := by
  obtain ⟨a1, a2, a3, a4⟩ := h1
  obtain ⟨b1, b2, b3, b4⟩ := h2
  refine ⟨by omega, ?_, ?_, ?_⟩
  · rw [List.map_append, List.pairwise_append]
    refine ⟨a2, b2, ?_⟩
    intro x hx y hy
    obtain ⟨h, hh, rfl⟩ := List.mem_map.1 hx
    obtain ⟨k, hk, rfl⟩ := List.mem_map.1 hy
    have := a3 h hh
    have := b3 k hk
    omega
  · intro h hh
    rcases List.mem_append.1 hh with hh | hh
    · have := a3 h hh; omega
    · have := b3 h hh; omega
  · intro h hh
    rcases List.mem_append.1 hh with hh | hh
    · exact a4 h hh
    · exact b4 h hh

theorem Numbered.nil (a : Nat) : Numbered a a [] := ⟨le_refl _, by simp, by simp, by simp⟩

theorem hookCall_numbered {m : Module} {fuel ci pos gi cpt cpt' : Nat} {F g : Func} {parent : Str} {c : Call} {l : Loc}
    {hs : List Hook} (h : hookCall m fuel ci F parent pos c gi g l cpt = .ok (hs, cpt')) : Numbered cpt cpt' hs := by
  unfold hookCall at h
  simp only at h
  split at h
  · cases h
    exact ⟨by omega, by simp, by simp, by simp⟩
  · obtain ⟨e, -, h⟩ := bind_inv h
    obtain ⟨x, -, h⟩ := bind_inv h
    cases h
    refine ⟨by omega, by simp, ?_, by simp⟩
    intro k hk
    rw [List.mem_singleton] at hk
    subst hk
    simp only [num_ident]
    omega

theorem walkBody_numbered {m : Module} {fuel ci : Nat} {F : Func} {parent : Str} : ∀ (l : List Instr) (pos cpt cpt' : Nat)
    (hs : List Hook), walkBody m fuel ci F parent l pos cpt = .ok (hs, cpt') → Numbered cpt cpt' hs := by
  intro l
  induction l with
  | nil => intro pos cpt cpt' hs h; cases h; exact .nil _
  | cons i l ih =>
    intro pos cpt cpt' hs h
    cases i with
    | call c =>
      rw [walkBody] at h
      obtain ⟨⟨h1, c1⟩, e1, h⟩ := bind_inv h
      obtain ⟨⟨h2, c2⟩, e2, h⟩ := bind_inv h
      cases h
      refine Numbered.append ?_ (ih _ _ _ _ e2)
      split at e1
      · cases e1; exact .nil _
      · split at e1
        · cases e1; exact .nil _
        · split at e1
          · cases e1; exact .nil _
          · exact hookCall_numbered e1
    | alloca a => exact ih _ _ _ _ h
    | gep b o => exact ih _ _ _ _ h
    | other o => exact ih _ _ _ _ h

theorem walkFuncs_numbered {m : Module} {fuel : Nat} : ∀ (l : List (Nat × Func)) (cpt cpt' : Nat) (hs : List Hook),
    walkFuncs m fuel l cpt = .ok (hs, cpt') → Numbered cpt cpt' hs := by
  intro l
  induction l with
  | nil => intro cpt cpt' hs h; cases h; exact .nil _
  | cons p l ih =>
    intro cpt cpt' hs h
    obtain ⟨ci, F⟩ := p
    rw [walkFuncs] at h
    obtain ⟨⟨h1, c1⟩, e1, h⟩ := bind_inv h
    obtain ⟨⟨h2, c2⟩, e2, h⟩ := bind_inv h
    cases h
    refine Numbered.append ?_ (ih _ _ _ e2)
    split at e1
    · cases e1; exact .nil _
    · exact walkBody_numbered _ _ _ _ _ e1

/-- **C66**: within a module all identifiers, the one of `main` included, are different,
and so are the symbols of the hooks. -/
theorem C66_unique (m : Module) (fuel : Nat) (main : Option Hook) (hs : List Hook)
    (h : runOnModule m fuel = .ok (main, hs)) :
    ((main.toList ++ hs).map Hook.id).Nodup ∧ ((main.toList ++ hs).map Hook.symbol).Nodup := by
  obtain ⟨_, e1, h⟩ := bind_inv h
  obtain ⟨⟨_, c2⟩, e2, h⟩ := bind_inv h
  cases h
  have n2 := walkFuncs_numbered _ _ _ _ e2
  have n1 : Numbered 1 (if main.isSome then 2 else 1) main.toList := by
    clear n2 e2 h
    split at e1
    · cases e1; exact .nil _
    · obtain ⟨x, e3, e1⟩ := bind_inv e1
      cases e1
      unfold hookMain at e3
      split at e3
      · cases e3
      · obtain ⟨y, -, e3⟩ := bind_inv e3
        obtain ⟨z, -, e3⟩ := bind_inv e3
        cases e3
        refine ⟨by simp, by simp, ?_, by simp⟩
        intro k hk
        rw [Option.mem_toList, Option.some.injEq] at hk
        subst hk
        simp [num_ident]
  obtain ⟨-, p, -, q⟩ := n1.append n2
  have a : ((main.toList ++ hs).map Hook.id).Nodup := by
    have : ((main.toList ++ hs).map fun h => num h.id) = ((main.toList ++ hs).map Hook.id).map num := by
      rw [List.map_map]; rfl
    rw [this] at p
    exact List.Nodup.of_map _ (p.imp (fun h => Nat.ne_of_lt h))
  refine ⟨a, ?_⟩
  have : (main.toList ++ hs).map Hook.symbol = ((main.toList ++ hs).map Hook.id).map symbolOf := by
    rw [List.map_map]
    exact List.map_congr_left q
  rw [this]
  exact a.map (fun _ _ => symbolOf_inj)

/-! ## C66: which calls are hooked -/

/-- A call that involves numbers of the type `t` or vectors `v` of it: in the result, in an
operand of the body of the function, or, if it has none, in an argument; there a pointer
counts as well, as it may point to such numbers. -/
def Involves (t v : Ty) (c : Call) (g : Func) : Prop :=
  g.ret = t ∨ (∃ i ∈ g.body, ∃ o ∈ i.opTys, o = t ∨ o = v) ∨ (g.body = [] ∧ ∃ a ∈ c.args, a.2 = t ∨ a.2 = .ptr)

theorem uses_iff (t v : Ty) (c : Call) (g : Func) : uses t v .ptr (some c) g = true ↔ Involves t v c g := by
  unfold uses Involves
  by_cases hb : g.body = []
  · simp [hb]
  · simp [hb]

/-- The calls that should have a hook: direct, with a location, to neither a debug nor a
lifetime marker, nor to an intrinsic without floating point. -/
def Hookable (m : Module) (c : Call) (gi : Nat) : Prop :=
  c.callee = some gi ∧ c.loc.isSome ∧ ∃ g, m[gi]? = some g ∧
    ¬ "llvm.dbg.".toList <+: g.name ∧ ¬ "llvm.lifetime.".toList <+: g.name ∧
    (g.intrinsic = true → Involves .float .vecFloat c g ∨ Involves .double .vecDouble c g)

theorem isDebug_iff (n : Str) : isDebug n = false ↔ ¬ "llvm.dbg.".toList <+: n ∧ ¬ "llvm.lifetime.".toList <+: n := by
  unfold isDebug
  rw [Bool.or_eq_false_iff, ← Bool.not_eq_true, ← Bool.not_eq_true, List.isPrefixOf_iff_prefix, List.isPrefixOf_iff_prefix]

theorem noFp_iff (c : Call) (g : Func) :
    ¬ (g.intrinsic = true ∧ useFloat (some c) g = false ∧ useDouble (some c) g = false) ↔
      (g.intrinsic = true → Involves .float .vecFloat c g ∨ Involves .double .vecDouble c g) := by
  rw [← uses_iff, ← uses_iff]
  unfold useFloat useDouble floatPtrTy doublePtrTy
  rw [← Bool.not_eq_true, ← Bool.not_eq_true]
  tauto

theorem hookCall_site {m : Module} {fuel ci pos gi cpt cpt' : Nat} {F g : Func} {parent : Str} {c : Call} {l : Loc}
    {hs : List Hook} (h : hookCall m fuel ci F parent pos c gi g l cpt = .ok (hs, cpt')) :
    hs.map (fun h => (h.caller, h.pos, h.callee)) =
      if g.intrinsic = true ∧ useFloat (some c) g = false ∧ useDouble (some c) g = false then [] else [(ci, pos, gi)] := by
  unfold hookCall at h
  simp only at h
  by_cases hc : (g.intrinsic && !(useFloat (some c) g || useDouble (some c) g)) = true
  · rw [if_pos hc] at h
    cases h
    rw [if_pos (by simpa using hc)]
    rfl
  · rw [if_neg hc] at h
    obtain ⟨e, -, h⟩ := bind_inv h
    obtain ⟨x, -, h⟩ := bind_inv h
    cases h
    rw [if_neg (by simpa using hc)]
    rfl

open Classical in
/-- The hookable calls of a list of instructions, with their positions. -/
noncomputable def sites (m : Module) (ci : Nat) : List Instr → Nat → List (Nat × Nat × Nat)
  | [], _ => []
  | .call c :: l, pos =>
    (if h : ∃ gi, Hookable m c gi then [(ci, pos, h.choose)] else []) ++ sites m ci l (pos + 1)
  | _ :: l, pos => sites m ci l (pos + 1)

theorem choose_callee {m : Module} {c : Call} {gi : Nat} (hg : c.callee = some gi) (h : ∃ gi, Hookable m c gi) :
    h.choose = gi := by
  have := h.choose_spec.1
  rw [hg] at this
  exact (Option.some.inj this).symm

theorem walkBody_sites {m : Module} {fuel ci : Nat} {F : Func} {parent : Str} : ∀ (l : List Instr) (pos cpt cpt' : Nat)
    (hs : List Hook), walkBody m fuel ci F parent l pos cpt = .ok (hs, cpt') →
    hs.map (fun h => (h.caller, h.pos, h.callee)) = sites m ci l pos := by
  intro l
  induction l with
  | nil => intro pos cpt cpt' hs h; cases h; rfl
  | cons i l ih =>
    intro pos cpt cpt' hs h
    cases i with
    | call c =>
      rw [walkBody] at h
      obtain ⟨⟨h1, c1⟩, e1, h⟩ := bind_inv h
      obtain ⟨⟨h2, c2⟩, e2, h⟩ := bind_inv h
      cases h
      rw [List.map_append, ih _ _ _ _ e2, sites]
      congr 1
      cases hcal : c.callee with
      | none =>
        rw [hcal] at e1
        cases e1
        rw [dif_neg]
        · rfl
        · rintro ⟨gi, hk, -⟩
          rw [hcal] at hk; cases hk
      | some gi =>
        rw [hcal] at e1
        cases hg : m[gi]? with
        | none =>
          simp only [Option.bind_some, hg, Option.map_none] at e1
          cases e1
          rw [dif_neg]
          · rfl
          · rintro ⟨gi', hk, -, g, hg', -⟩
            rw [hcal] at hk
            cases hk
            rw [hg] at hg'; cases hg'
        | some g =>
          simp only [Option.bind_some, hg, Option.map_some] at e1
          have uniq : ∀ gi', Hookable m c gi' → c.loc.isSome ∧ isDebug g.name = false ∧
              ¬ (g.intrinsic = true ∧ useFloat (some c) g = false ∧ useDouble (some c) g = false) := by
            rintro gi' ⟨hk, hl, g', hg', hd1, hd2, hf⟩
            rw [hcal] at hk
            cases hk
            rw [hg] at hg'
            cases hg'
            exact ⟨hl, (isDebug_iff _).2 ⟨hd1, hd2⟩, (noFp_iff _ _).2 hf⟩
          by_cases hd : isDebug g.name = true
          · rw [if_pos hd] at e1
            cases e1
            rw [dif_neg]
            · rfl
            · rintro ⟨gi', hk⟩
              have := (uniq _ hk).2.1
              rw [hd] at this; cases this
          · rw [if_neg hd] at e1
            cases hl : c.loc with
            | none =>
              rw [hl] at e1
              cases e1
              rw [dif_neg]
              · rfl
              · rintro ⟨gi', hk⟩
                have := (uniq _ hk).1
                rw [hl] at this; cases this
            | some loc =>
              rw [hl] at e1
              rw [hookCall_site e1]
              by_cases hf : g.intrinsic = true ∧ useFloat (some c) g = false ∧ useDouble (some c) g = false
              · rw [if_pos hf, dif_neg]
                rintro ⟨gi', hk⟩
                exact (uniq _ hk).2.2 hf
              · have hk : Hookable m c gi := ⟨hcal, by rw [hl]; rfl, g, hg,
                  ((isDebug_iff _).1 (by simpa using hd)).1, ((isDebug_iff _).1 (by simpa using hd)).2, (noFp_iff _ _).1 hf⟩
                rw [if_neg hf, dif_pos ⟨gi, hk⟩, choose_callee hcal ⟨gi, hk⟩]
    | alloca a => exact ih _ _ _ _ h
    | gep b o => exact ih _ _ _ _ h
    | other o => exact ih _ _ _ _ h

theorem walkFuncs_sites {m : Module} {fuel : Nat} : ∀ (l : List (Nat × Func)) (cpt cpt' : Nat) (hs : List Hook),
    walkFuncs m fuel l cpt = .ok (hs, cpt') →
    hs.map (fun h => (h.caller, h.pos, h.callee)) =
      l.flatMap fun p => if p.2.sub.isSome then sites m p.1 p.2.body 0 else [] := by
  intro l
  induction l with
  | nil => intro cpt cpt' hs h; cases h; rfl
  | cons p l ih =>
    intro cpt cpt' hs h
    obtain ⟨ci, F⟩ := p
    rw [walkFuncs] at h
    obtain ⟨⟨h1, c1⟩, e1, h⟩ := bind_inv h
    obtain ⟨⟨h2, c2⟩, e2, h⟩ := bind_inv h
    cases h
    rw [List.map_append, ih _ _ _ e2, List.flatMap_cons]
    congr 1
    cases hs : F.sub with
    | none => rw [hs] at e1; cases e1; simp
    | some s => rw [hs] at e1; simpa using walkBody_sites _ _ _ _ _ e1

theorem mem_sites {m : Module} {ci : Nat} : ∀ (l : List Instr) (pos : Nat) (x : Nat × Nat × Nat),
    x ∈ sites m ci l pos ↔ x.1 = ci ∧ ∃ c k, l[k]? = some (Instr.call c) ∧ x.2.1 = pos + k ∧ Hookable m c x.2.2 := by
  intro l
  induction l with
  | nil => intro pos x; simp [sites]
  | cons i l ih =>
    intro pos x
    have shift : (x.1 = ci ∧ ∃ c k, l[k]? = some (Instr.call c) ∧ x.2.1 = pos + 1 + k ∧ Hookable m c x.2.2) ↔
        (x.1 = ci ∧ ∃ c k, 0 < k ∧ (i :: l)[k]? = some (Instr.call c) ∧ x.2.1 = pos + k ∧ Hookable m c x.2.2) := by
      constructor
      · rintro ⟨h1, c, k, h2, h3, h4⟩
        exact ⟨h1, c, k + 1, by omega, by simpa using h2, by omega, h4⟩
      · rintro ⟨h1, c, k, h0, h2, h3, h4⟩
        obtain ⟨k, rfl⟩ : ∃ j, k = j + 1 := ⟨k - 1, by omega⟩
        exact ⟨h1, c, k, by simpa using h2, by omega, h4⟩
    have other : (∀ c, i ≠ Instr.call c) → sites m ci (i :: l) pos = sites m ci l (pos + 1) → (x ∈ sites m ci (i :: l) pos ↔
        x.1 = ci ∧ ∃ c k, (i :: l)[k]? = some (Instr.call c) ∧ x.2.1 = pos + k ∧ Hookable m c x.2.2) := by
      intro hi hs
      rw [hs, ih, shift]
      constructor
      · rintro ⟨h1, c, k, -, h⟩; exact ⟨h1, c, k, h⟩
      · rintro ⟨h1, c, k, h2, h⟩
        refine ⟨h1, c, k, ?_, h2, h⟩
        rcases Nat.eq_zero_or_pos k with h0 | h0
        · subst h0
          simp only [List.getElem?_cons_zero, Option.some.injEq] at h2
          exact absurd h2 (hi c)
        · exact h0
    cases i with
    | call c =>
      rw [sites, List.mem_append, ih, shift]
      constructor
      · rintro (h | ⟨h1, c', k, -, h⟩)
        · split at h
          · rename_i hex
            rw [List.mem_singleton] at h
            subst h
            exact ⟨rfl, c, 0, rfl, rfl, hex.choose_spec⟩
          · cases h
        · exact ⟨h1, c', k, h⟩
      · rintro ⟨h1, c', k, h2, h3, h4⟩
        rcases Nat.eq_zero_or_pos k with h0 | h0
        · left
          subst h0
          simp only [List.getElem?_cons_zero, Option.some.injEq, Instr.call.injEq] at h2
          subst h2
          rw [dif_pos ⟨_, h4⟩, List.mem_singleton, choose_callee h4.1 ⟨_, h4⟩]
          obtain ⟨a, b, d⟩ := x
          simp only at h1 h3 ⊢
          rw [h1, h3, Nat.add_zero]
        · right
          exact ⟨h1, c', k, h0, h2, h3, h4⟩
    | alloca a => exact other (by simp) rfl
    | gep b o => exact other (by simp) rfl
    | other o => exact other (by simp) rfl

/-- **C66**: a call is replaced by a hook exactly when it stands in a function with debug
information, is direct, has a location, and does not call a debug or lifetime marker or an
intrinsic without floating point; the hook calls that same function. -/
theorem C66_hooked (m : Module) (fuel : Nat) (main : Option Hook) (hs : List Hook)
    (h : runOnModule m fuel = .ok (main, hs)) (ci k gi : Nat) :
    (∃ x ∈ hs, x.caller = ci ∧ x.pos = k ∧ x.callee = gi) ↔
      ∃ F c, m[ci]? = some F ∧ F.sub.isSome ∧ F.body[k]? = some (Instr.call c) ∧ Hookable m c gi := by
  obtain ⟨_, e1, h⟩ := bind_inv h
  obtain ⟨⟨_, c2⟩, e2, h⟩ := bind_inv h
  cases h
  have key := walkFuncs_sites _ _ _ _ e2
  have l1 : (∃ x ∈ hs, x.caller = ci ∧ x.pos = k ∧ x.callee = gi) ↔
      (ci, k, gi) ∈ hs.map (fun h => (h.caller, h.pos, h.callee)) := by
    simp only [List.mem_map, Prod.mk.injEq]
  rw [l1, key, List.mem_flatMap]
  have mem_idx : ∀ p : Nat × Func, p ∈ indexed m ↔ m[p.1]? = some p.2 := by
    intro p
    unfold indexed
    simp only [List.mem_map]
    constructor
    · rintro ⟨q, hq, rfl⟩
      exact List.mem_zipIdx_iff_getElem?.1 hq
    · intro hp
      exact ⟨(p.2, p.1), List.mem_zipIdx_iff_getElem?.2 hp, rfl⟩
  have mem_org : ∀ p : Nat × Func, p ∈ originals m ↔ m[p.1]? = some p.2 ∧ (p.2.name = mainName ∨ p.2.body ≠ []) := by
    intro p
    unfold originals
    rw [List.mem_append, List.mem_filter, List.mem_filter, mem_idx]
    simp only [ne_eq, decide_eq_true_eq]
    tauto
  constructor
  · rintro ⟨⟨ci', F⟩, hp, hx⟩
    split at hx
    · rename_i hsub
      obtain ⟨h3, c, j, h4, h5, h6⟩ := (mem_sites _ _ _).1 hx
      simp only [Nat.zero_add] at h3 h4 h5 h6 hsub
      subst h3 h5
      exact ⟨F, c, ((mem_org _).1 hp).1, hsub, h4, h6⟩
    · cases hx
  · rintro ⟨F, c, h3, h4, h5, h6⟩
    refine ⟨(ci, F), (mem_org _).2 ⟨h3, Or.inr ?_⟩, ?_⟩
    · intro hc
      simp only at hc
      rw [hc] at h5; cases h5
    · rw [if_pos h4]
      exact (mem_sites _ _ _).2 ⟨rfl, c, k, h5, by simp, h6⟩

/-- The flags of the hooks, wherever they come from. -/
theorem hookCall_flags {m : Module} {fuel ci pos gi cpt cpt' : Nat} {F g : Func} {parent : Str} {c : Call} {l : Loc}
    {hs : List Hook} (h : hookCall m fuel ci F parent pos c gi g l cpt = .ok (hs, cpt')) :
    ∀ x ∈ hs, (x.float = true ↔ Involves .float .vecFloat c g) ∧ (x.double = true ↔ Involves .double .vecDouble c g) ∧
      x.library = g.library ∧ x.intrinsic = g.intrinsic := by
  unfold hookCall at h
  simp only at h
  split at h
  · cases h; simp
  · obtain ⟨e, -, h⟩ := bind_inv h
    obtain ⟨x, -, h⟩ := bind_inv h
    cases h
    intro k hk
    rw [List.mem_singleton] at hk
    subst hk
    exact ⟨uses_iff _ _ _ _, uses_iff _ _ _ _, rfl, rfl⟩

theorem walkBody_flags {m : Module} {fuel ci : Nat} {F : Func} {parent : Str} : ∀ (l : List Instr) (pos cpt cpt' : Nat)
    (hs : List Hook), walkBody m fuel ci F parent l pos cpt = .ok (hs, cpt') → ∀ x ∈ hs, ∃ c g k,
      l[k]? = some (Instr.call c) ∧ x.pos = pos + k ∧ m[x.callee]? = some g ∧
      (x.float = true ↔ Involves .float .vecFloat c g) ∧ (x.double = true ↔ Involves .double .vecDouble c g) ∧
      x.library = g.library ∧ x.intrinsic = g.intrinsic := by
  intro l
  induction l with
  | nil => intro pos cpt cpt' hs h; cases h; simp
  | cons i l ih =>
    intro pos cpt cpt' hs h x hx
    have next : ∀ {cpt cpt' hs}, walkBody m fuel ci F parent l (pos + 1) cpt = .ok (hs, cpt') → x ∈ hs → ∃ c g k,
        (i :: l)[k]? = some (Instr.call c) ∧ x.pos = pos + k ∧ m[x.callee]? = some g ∧
        (x.float = true ↔ Involves .float .vecFloat c g) ∧ (x.double = true ↔ Involves .double .vecDouble c g) ∧
        x.library = g.library ∧ x.intrinsic = g.intrinsic := by
      intro cpt cpt' hs h hx
      obtain ⟨c, g, k, h1, h2, h3⟩ := ih _ _ _ _ h x hx
      exact ⟨c, g, k + 1, by simpa using h1, by omega, h3⟩
    cases i with
    | call c =>
      rw [walkBody] at h
      obtain ⟨⟨h1, c1⟩, e1, h⟩ := bind_inv h
      obtain ⟨⟨h2, c2⟩, e2, h⟩ := bind_inv h
      cases h
      rcases List.mem_append.1 hx with hx | hx
      · split at e1
        · cases e1; cases hx
        · rename_i gi g hg
          split at e1
          · cases e1; cases hx
          · split at e1
            · cases e1; cases hx
            · have hf := hookCall_flags e1 x hx
              have hsite := hookCall_site e1
              have : (x.caller, x.pos, x.callee) ∈ h1.map (fun h => (h.caller, h.pos, h.callee)) :=
                List.mem_map_of_mem hx
              rw [hsite] at this
              split at this
              · cases this
              · rw [List.mem_singleton] at this
                simp only [Prod.mk.injEq] at this
                obtain ⟨-, hp, hc⟩ := this
                refine ⟨c, g, 0, rfl, by omega, ?_, hf⟩
                cases hcal : c.callee with
                | none => rw [hcal] at hg; cases hg
                | some j =>
                  rw [hcal] at hg
                  cases hj : m[j]? with
                  | none => simp [hj] at hg
                  | some g' =>
                    simp only [Option.bind_some, hj, Option.map_some, Option.some.injEq, Prod.mk.injEq] at hg
                    rw [hc, ← hg.1, hj, hg.2]
      · exact next e2 hx
    | alloca a => exact next h hx
    | gep b o => exact next h hx
    | other o => exact next h hx

/-- **C66**: the flags passed to the runtime say whether the call involves `float` and
`double`, and what kind of function is called. -/
theorem C66_flags (m : Module) (fuel : Nat) (main : Option Hook) (hs : List Hook)
    (h : runOnModule m fuel = .ok (main, hs)) : ∀ x ∈ hs, ∃ F c g, m[x.caller]? = some F ∧
      F.body[x.pos]? = some (Instr.call c) ∧ m[x.callee]? = some g ∧
      (x.float = true ↔ Involves .float .vecFloat c g) ∧ (x.double = true ↔ Involves .double .vecDouble c g) ∧
      x.library = g.library ∧ x.intrinsic = g.intrinsic := by
  intro x hx
  obtain ⟨F, c0, h1, -, h2, -⟩ := (C66_hooked m fuel main hs h x.caller x.pos x.callee).1 ⟨x, hx, rfl, rfl, rfl⟩
  obtain ⟨_, -, h⟩ := bind_inv h
  obtain ⟨⟨_, c2⟩, e2, h⟩ := bind_inv h
  cases h
  have walk : ∀ (l : List (Nat × Func)) (cpt cpt' : Nat) (hs : List Hook), walkFuncs m fuel l cpt = .ok (hs, cpt') →
      x ∈ hs → ∃ ci F, (ci, F) ∈ l ∧ ∃ parent cpt cpt' hs', walkBody m fuel ci F parent F.body 0 cpt = .ok (hs', cpt') ∧ x ∈ hs' := by
    intro l
    induction l with
    | nil => intro cpt cpt' hs h hx; cases h; cases hx
    | cons p l ih =>
      intro cpt cpt' hs h hx
      obtain ⟨ci, F⟩ := p
      rw [walkFuncs] at h
      obtain ⟨⟨g1, c1⟩, e1, h⟩ := bind_inv h
      obtain ⟨⟨g2, c2⟩, e2, h⟩ := bind_inv h
      cases h
      rcases List.mem_append.1 hx with hx | hx
      · split at e1
        · cases e1; cases hx
        · exact ⟨ci, F, List.mem_cons_self .., _, _, _, _, e1, hx⟩
      · obtain ⟨ci, F, h3, h4⟩ := ih _ _ _ e2 hx
        exact ⟨ci, F, List.mem_cons_of_mem _ h3, h4⟩
  obtain ⟨ci, F', h3, parent, cpt, cpt', hs', e3, hx'⟩ := walk _ _ _ _ e2 hx
  have hci : x.caller = ci := by
    have : (x.caller, x.pos, x.callee) ∈ hs'.map (fun h => (h.caller, h.pos, h.callee)) := List.mem_map_of_mem hx'
    rw [walkBody_sites _ _ _ _ _ e3] at this
    exact ((mem_sites _ _ _).1 this).1
  have hF : m[ci]? = some F' := by
    unfold originals indexed at h3
    simp only [List.mem_append, List.mem_filter, List.mem_map] at h3
    rcases h3 with ⟨⟨q, hq, hq'⟩, -⟩ | ⟨⟨q, hq, hq'⟩, -⟩ <;>
    · have := List.mem_zipIdx_iff_getElem?.1 hq
      cases hq'
      exact this
  obtain ⟨c, g, k, h4, h5, h6, h7⟩ := walkBody_flags _ _ _ _ _ e3 x hx'
  rw [Nat.zero_add] at h5
  exact ⟨F', c, g, by rw [hci]; exact hF, by rw [h5]; exact h4, h6, h7⟩

/-! ## C67: argument lists -/

def relevant (t : Ty) : Bool := isFp t || isPtr t

theorem ftype_fp {t : Ty} (h : isFp t = true) : ∃ k, ftype t = some k ∧ (t = .float ∧ k = 0 ∨ t = .double ∧ k = 1) := by
  cases t <;> simp_all [isFp, ftype]

theorem ftype_none {t : Ty} (h : relevant t = false) : ftype t = none := by
  cases t <;> simp_all [relevant, isFp, isPtr, ftype, floatPtrTy, doublePtrTy]

/-- What the entry of parameter `i` of type `t` should be, when `r` floating point
parameters precede it: its type, the name and, for a number, one element in the next slot;
for a pointer, the pointer itself. -/
structure Describes (m : Module) (hooked : Func) (site : Site) (fuel i r : Nat) (t : Ty) (q : Quad) : Prop where
  name : getArgName m i hooked.body = .ok q.name
  fp : isFp t = true → q.size = 1 ∧ q.addr = .slot r ∧ (t = .float ∧ q.ty = 0 ∨ t = .double ∧ q.ty = 1)
  ptr : isPtr t = true → getSizeOf site.caller fuel (site.operand i) = .ok q.size ∧ q.addr = .param i ∧ ftype t = some q.ty

theorem inputArgs_read {m : Module} {fuel : Nat} {hooked : Func} {site : Site} : ∀ (ts : List Ty) (i slot : Nat) (e : List VA),
    inputArgs m fuel hooked (some site) ts i slot = .ok e →
    ∃ qs, readArgs (ts.countP relevant) e = .ok (qs, []) ∧ qs.length = ts.countP relevant ∧
      ∀ j t, ts[j]? = some t → relevant t = true → ∃ q, qs[(ts.take j).countP relevant]? = some q ∧
        Describes m hooked site fuel (i + j) (slot + (ts.take j).countP isFp) t q := by
  intro ts
  induction ts with
  | nil =>
    intro i slot e h
    cases h
    exact ⟨[], rfl, rfl, by simp⟩
  | cons t ts ih =>
    intro i slot e h
    rw [inputArgs] at h
    obtain ⟨hd, e1, h⟩ := bind_inv h
    by_cases hfp : isFp t = true
    · rw [if_pos hfp] at h
      obtain ⟨rest, e2, h⟩ := bind_inv h
      cases h
      obtain ⟨k, hk, hk'⟩ := ftype_fp hfp
      rw [hk] at e1
      obtain ⟨nm, e3, e1⟩ := bind_inv e1
      cases e1
      obtain ⟨qs, r1, r2, r3⟩ := ih _ _ _ e2
      have hr : relevant t = true := by simp [relevant, hfp]
      refine ⟨⟨k, nm, 1, .slot slot⟩ :: qs, ?_, ?_, ?_⟩
      · rw [List.countP_cons_of_pos hr]
        simp only [List.cons_append, List.nil_append, readArgs, r1, Outcome.bind_ok, Outcome.pure_eq]
      · rw [List.countP_cons_of_pos hr, List.length_cons, r2]
      · intro j t' hj ht'
        cases j with
        | zero =>
          simp only [List.getElem?_cons_zero, Option.some.injEq] at hj
          subst hj
          refine ⟨⟨k, nm, 1, .slot slot⟩, by simp, ⟨by simpa using e3, ?_, ?_⟩⟩
          · intro _
            exact ⟨rfl, by simp, hk'⟩
          · intro hp
            rcases hk' with ⟨rfl, -⟩ | ⟨rfl, -⟩ <;> simp [isPtr, floatPtrTy, doublePtrTy] at hp
        | succ j =>
          rw [List.getElem?_cons_succ] at hj
          obtain ⟨q, q1, q2⟩ := r3 j t' hj ht'
          refine ⟨q, ?_, ?_⟩
          · rw [List.take_succ_cons, List.countP_cons_of_pos hr, List.getElem?_cons_succ]; exact q1
          · rw [List.take_succ_cons, List.countP_cons_of_pos hfp]
            rw [show i + (j + 1) = i + 1 + j by omega, show slot + ((ts.take j).countP isFp + 1) =
              slot + 1 + (ts.take j).countP isFp by omega]
            exact q2
    · rw [if_neg hfp] at h
      simp only at h
      by_cases hp : isPtr t = true
      · rw [if_pos hp] at h
        obtain ⟨n, e4, h⟩ := bind_inv h
        obtain ⟨rest, e2, h⟩ := bind_inv h
        cases h
        have hk : ftype t = some 3 := by
          cases t <;> simp_all [isPtr, isFp, ftype, floatPtrTy, doublePtrTy]
        rw [hk] at e1
        obtain ⟨nm, e3, e1⟩ := bind_inv e1
        cases e1
        obtain ⟨qs, r1, r2, r3⟩ := ih _ _ _ e2
        have hr : relevant t = true := by simp [relevant, hp]
        refine ⟨⟨3, nm, n, .param i⟩ :: qs, ?_, ?_, ?_⟩
        · rw [List.countP_cons_of_pos hr]
          simp only [List.cons_append, List.nil_append, readArgs, r1, Outcome.bind_ok, Outcome.pure_eq]
        · rw [List.countP_cons_of_pos hr, List.length_cons, r2]
        · intro j t' hj ht'
          cases j with
          | zero =>
            simp only [List.getElem?_cons_zero, Option.some.injEq] at hj
            subst hj
            refine ⟨⟨3, nm, n, .param i⟩, by simp, ⟨by simpa using e3, ?_, ?_⟩⟩
            · intro hc; exact absurd hc hfp
            · intro _
              exact ⟨by simpa using e4, by simp, hk⟩
          | succ j =>
            rw [List.getElem?_cons_succ] at hj
            obtain ⟨q, q1, q2⟩ := r3 j t' hj ht'
            refine ⟨q, ?_, ?_⟩
            · rw [List.take_succ_cons, List.countP_cons_of_pos hr, List.getElem?_cons_succ]; exact q1
            · rw [List.take_succ_cons, List.countP_cons_of_neg hfp]
              rw [show i + (j + 1) = i + 1 + j by omega]
              exact q2
      · rw [if_neg hp] at h
        obtain ⟨rest, e2, h⟩ := bind_inv h
        cases h
        have hr : relevant t = false := by simp [relevant, hfp, hp]
        rw [ftype_none hr] at e1
        cases e1
        obtain ⟨qs, r1, r2, r3⟩ := ih _ _ _ e2
        have hr' : ¬ relevant t = true := by simp [hr]
        refine ⟨qs, ?_, ?_, ?_⟩
        · rw [List.countP_cons_of_neg hr', List.nil_append]; exact r1
        · rw [List.countP_cons_of_neg hr']; exact r2
        · intro j t' hj ht'
          cases j with
          | zero =>
            simp only [List.getElem?_cons_zero, Option.some.injEq] at hj
            subst hj
            exact absurd ht' hr'
          | succ j =>
            rw [List.getElem?_cons_succ] at hj
            obtain ⟨q, q1, q2⟩ := r3 j t' hj ht'
            refine ⟨q, ?_, ?_⟩
            · rw [List.take_succ_cons, List.countP_cons_of_neg hr']; exact q1
            · rw [List.take_succ_cons, List.countP_cons_of_neg hfp]
              rw [show i + (j + 1) = i + 1 + j by omega]
              exact q2

theorem countIn_true (ts : List Ty) : countIn true ts = ts.countP relevant := by
  unfold countIn
  apply List.countP_congr
  intro t _
  simp [relevant]

/-- **C67**: for every call hooked, what the runtime reads on entry is one entry for each
`float`, `double` or pointer argument, in order, with nothing left over: a number stands in
its own stack slot, a pointer is passed as it is. -/
theorem C67_enter (m : Module) (fuel : Nat) (hooked : Func) (site : Site) (params : List Ty) (e : List VA)
    (h : inputArgs m fuel hooked (some site) params 0 0 = .ok e) :
    ∃ qs, readArgs (countIn true params) e = .ok (qs, []) ∧ qs.length = params.countP relevant ∧
      ∀ j t, params[j]? = some t → relevant t = true → ∃ q, qs[(params.take j).countP relevant]? = some q ∧
        Describes m hooked site fuel j ((params.take j).countP isFp) t q := by
  rw [countIn_true]
  simpa using inputArgs_read params 0 0 e h

theorem outputPtrs_read {m : Module} {fuel : Nat} {hooked : Func} {site : Site} : ∀ (ts : List Ty) (i : Nat) (e : List VA),
    outputPtrs m fuel hooked site ts i = .ok e →
    ∃ qs, readArgs (ts.countP isPtr) e = .ok (qs, []) ∧ qs.length = ts.countP isPtr ∧
      ∀ j t, ts[j]? = some t → isPtr t = true → ∃ q, qs[(ts.take j).countP isPtr]? = some q ∧
        Describes m hooked site fuel (i + j) 0 t q := by
  intro ts
  induction ts with
  | nil => intro i e h; cases h; exact ⟨[], rfl, rfl, by simp⟩
  | cons t ts ih =>
    intro i e h
    rw [outputPtrs] at h
    by_cases hp : isPtr t = true
    · rw [if_pos hp] at h
      obtain ⟨nm, e3, h⟩ := bind_inv h
      obtain ⟨n, e4, h⟩ := bind_inv h
      obtain ⟨rest, e2, h⟩ := bind_inv h
      cases h
      have hk : ftype t = some 3 := by
        cases t <;> simp_all [isPtr, ftype, floatPtrTy, doublePtrTy]
      obtain ⟨qs, r1, r2, r3⟩ := ih _ _ e2
      refine ⟨⟨3, nm, n, .param i⟩ :: qs, ?_, ?_, ?_⟩
      · rw [List.countP_cons_of_pos hp, hk]
        simp only [List.cons_append, List.nil_append, readArgs, r1, Outcome.bind_ok, Outcome.pure_eq, Option.getD_some]
      · rw [List.countP_cons_of_pos hp, List.length_cons, r2]
      · intro j t' hj ht'
        cases j with
        | zero =>
          simp only [List.getElem?_cons_zero, Option.some.injEq] at hj
          subst hj
          refine ⟨⟨3, nm, n, .param i⟩, by simp, ⟨by simpa using e3, ?_, ?_⟩⟩
          · intro hc
            cases t <;> simp_all [isPtr, isFp, floatPtrTy, doublePtrTy]
          · intro _
            exact ⟨by simpa using e4, by simp, hk⟩
        | succ j =>
          rw [List.getElem?_cons_succ] at hj
          obtain ⟨q, q1, q2⟩ := r3 j t' hj ht'
          refine ⟨q, ?_, ?_⟩
          · rw [List.take_succ_cons, List.countP_cons_of_pos hp, List.getElem?_cons_succ]; exact q1
          · rw [show i + (j + 1) = i + 1 + j by omega]
            exact q2
    · rw [if_neg hp] at h
      obtain ⟨qs, r1, r2, r3⟩ := ih _ _ h
      refine ⟨qs, ?_, ?_, ?_⟩
      · rw [List.countP_cons_of_neg hp]; exact r1
      · rw [List.countP_cons_of_neg hp]; exact r2
      · intro j t' hj ht'
        cases j with
        | zero =>
          simp only [List.getElem?_cons_zero, Option.some.injEq] at hj
          subst hj
          exact absurd ht' hp
        | succ j =>
          rw [List.getElem?_cons_succ] at hj
          obtain ⟨q, q1, q2⟩ := r3 j t' hj ht'
          refine ⟨q, ?_, ?_⟩
          · rw [List.take_succ_cons, List.countP_cons_of_neg hp]; exact q1
          · rw [show i + (j + 1) = i + 1 + j by omega]
            exact q2

/-- What the entry of the result should be. -/
def DescribesRet (ret : Ty) (q : Quad) : Prop :=
  q.name = "return_value".toList ∧ ftype ret = some q.ty ∧
  (isFp ret = true → q.size = 1 ∧ q.addr = .retSlot) ∧ (isPtr ret = true → q.addr = .ret)

/-- **C67**: what the runtime reads on exit is the result, if it is a number or a pointer,
then the pointer arguments in order, with nothing left over. -/
theorem C67_exit (m : Module) (fuel : Nat) (hooked : Func) (site : Site) (ret : Ty) (params : List Ty) (x : List VA)
    (h : outputArgs m fuel hooked (some site) ret params = .ok x) :
    ∃ r qs, readArgs (countOut true ret params) x = .ok (r ++ qs, []) ∧
      (relevant ret = true → ∃ q, r = [q] ∧ DescribesRet ret q) ∧ (relevant ret = false → r = []) ∧
      qs.length = params.countP isPtr ∧
      ∀ j t, params[j]? = some t → isPtr t = true → ∃ q, qs[(params.take j).countP isPtr]? = some q ∧
        Describes m hooked site fuel j 0 t q := by
  unfold outputArgs at h
  simp only at h
  obtain ⟨rest, e1, h⟩ := bind_inv h
  cases h
  obtain ⟨qs, r1, r2, r3⟩ := outputPtrs_read params 0 rest e1
  have hc : params.countP (fun t => isPtr t && true) = params.countP isPtr := by simp
  unfold countOut
  rw [hc]
  simp only [Nat.zero_add] at r3
  cases ret with
  | float =>
    refine ⟨[⟨0, "return_value".toList, 1, .retSlot⟩], qs, ?_, fun _ => ⟨_, rfl, rfl, rfl, fun _ => ⟨rfl, rfl⟩, by simp [isPtr, floatPtrTy, doublePtrTy]⟩,
      by simp [relevant, isFp], r2, r3⟩
    simp [isFp, ftype, Nat.add_comm 1, readArgs, r1]
  | double =>
    refine ⟨[⟨1, "return_value".toList, 1, .retSlot⟩], qs, ?_, fun _ => ⟨_, rfl, rfl, rfl, fun _ => ⟨rfl, rfl⟩, by simp [isPtr, floatPtrTy, doublePtrTy]⟩,
      by simp [relevant, isFp], r2, r3⟩
    simp [isFp, ftype, Nat.add_comm 1, readArgs, r1]
  | ptr =>
    refine ⟨[⟨3, "return_value".toList, 0, .ret⟩], qs, ?_, fun _ => ⟨_, rfl, rfl, rfl, by simp [isFp], fun _ => rfl⟩,
      by simp [relevant, isPtr, floatPtrTy], r2, r3⟩
    simp [isFp, isPtr, ftype, floatPtrTy, Nat.add_comm 1, readArgs, r1]
  | void => exact ⟨[], qs, by simp [isFp, isPtr, ftype, floatPtrTy, doublePtrTy, r1], by simp [relevant, isFp, isPtr, floatPtrTy, doublePtrTy], fun _ => rfl, r2, r3⟩
  | vecFloat => exact ⟨[], qs, by simp [isFp, isPtr, ftype, floatPtrTy, doublePtrTy, r1], by simp [relevant, isFp, isPtr, floatPtrTy, doublePtrTy], fun _ => rfl, r2, r3⟩
  | vecDouble => exact ⟨[], qs, by simp [isFp, isPtr, ftype, floatPtrTy, doublePtrTy, r1], by simp [relevant, isFp, isPtr, floatPtrTy, doublePtrTy], fun _ => rfl, r2, r3⟩
  | other k => exact ⟨[], qs, by simp [isFp, isPtr, ftype, floatPtrTy, doublePtrTy, r1], by simp [relevant, isFp, isPtr, floatPtrTy, doublePtrTy], fun _ => rfl, r2, r3⟩

end Verif.FuncInst
