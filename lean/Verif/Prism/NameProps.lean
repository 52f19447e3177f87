import Verif.Prism.Model
import Mathlib.Data.List.Induction
import Mathlib.Data.List.Nodup

/-!
# C78: names of the functions of the library

* `C78_names`: two requests have the same name only if they are for the same operation, type,
  rounding and dispatch, and for vectors the same way of passing them.
* `C78_lookup`: the function found is a definition of the library with that name, and one is found
  if there is any.
* `C78_overload_wrong`: of two definitions that differ by their parameters only, the last is taken.
-/

namespace Verif.Prism
open Verif.Pass (STy Ty Opcode Instr)

theorem toDigits_inj {m n : Nat} (h : Nat.toDigits 10 m = Nat.toDigits 10 n) : m = n := by
  have h1 := Nat.ofDigitChars_ten_toDigits (n := m)
  have h2 := Nat.ofDigitChars_ten_toDigits (n := n)
  rw [← h1, h, h2]

theorem ns_inj {r r' : Rounding} {s s' : Str} (h : r.ns ++ s = r'.ns ++ s') : r = r' ∧ s = s' := by
  have hl : r.ns.length = r'.ns.length := by cases r <;> cases r' <;> decide
  obtain ⟨h1, h2⟩ := List.append_inj h hl
  refine ⟨?_, h2⟩
  cases r <;> cases r' <;> first | rfl | (exfalso; revert h1; decide)

theorem dns_inj {d d' : Dispatch} {s s' : Str} (h : d.ns ++ s = d'.ns ++ s') : d = d' ∧ s = s' := by
  have e1 : Dispatch.static.ns = 's' :: "tatic_dispatch".toList := by decide
  have e2 : Dispatch.dynamic.ns = 'd' :: "ynamic_dispatch".toList := by decide
  cases d <;> cases d'
  · exact ⟨rfl, List.append_cancel_left h⟩
  · rw [e1, e2, List.cons_append, List.cons_append] at h
    exact absurd (List.cons.inj h).1 (by decide)
  · rw [e1, e2, List.cons_append, List.cons_append] at h
    exact absurd (List.cons.inj h).1 (by decide)
  · exact ⟨rfl, List.append_cancel_left h⟩

theorem pns_inj {p p' : Passing} {s s' : Str} (h : p.ns ++ s = p'.ns ++ s') : p = p' ∧ s = s' := by
  have e1 : Passing.byValue.ns = 'f' :: "ixed".toList := by decide
  have e2 : Passing.byPointer.ns = 'v' :: "ariable".toList := by decide
  cases p <;> cases p'
  · exact ⟨rfl, List.append_cancel_left h⟩
  · rw [e1, e2, List.cons_append, List.cons_append] at h
    exact absurd (List.cons.inj h).1 (by decide)
  · rw [e1, e2, List.cons_append, List.cons_append] at h
    exact absurd (List.cons.inj h).1 (by decide)
  · exact ⟨rfl, List.append_cancel_left h⟩

theorem opname_inj {o o' : FOp} {s s' : Str} (ho : o ≠ .ignore) (ho' : o' ≠ .ignore)
    (h : o.name ++ s = o'.name ++ s') : o = o' ∧ s = s' := by
  have hl : o.name.length = o'.name.length := by
    cases o <;> cases o' <;> first | decide | exact absurd rfl ho | exact absurd rfl ho'
  obtain ⟨h1, h2⟩ := List.append_inj h hl
  refine ⟨?_, h2⟩
  cases o <;> cases o' <;> first | rfl | (exfalso; revert h1; decide)

theorem fpTypeName_inj {t t' : STy} {n n' s s' : Str} (ht : fpTypeName t = some n)
    (ht' : fpTypeName t' = some n') (h : n ++ s = n' ++ s') : t = t' ∧ s = s' := by
  have hn : n.length = 3 := by
    cases t <;> first | (obtain rfl := Option.some.inj ht; decide) | cases ht
  have hn' : n'.length = 3 := by
    cases t' <;> first | (obtain rfl := Option.some.inj ht'; decide) | cases ht'
  obtain ⟨h1, h2⟩ := List.append_inj h (by rw [hn, hn'])
  subst h1
  refine ⟨?_, h2⟩
  cases t <;> cases t' <;> first
    | rfl
    | (exfalso; revert ht ht'; simp only [fpTypeName, Option.some.injEq, reduceCtorEq, false_implies,
        implies_true]; done)
    | (exfalso; obtain rfl := Option.some.inj ht; revert ht'; decide)

theorem typeName_inj {ty ty' : Ty} {n : Str} (h : typeName ty = some n) (h' : typeName ty' = some n)
    (hv : isVector ty = isVector ty') : ty = ty' := by
  cases ty with
  | svec => cases h
  | ptr => cases h
  | scalar t =>
    cases ty' with
    | vec => cases hv
    | svec => cases hv
    | ptr => cases h'
    | scalar t' => rw [(fpTypeName_inj (s := []) (s' := []) h h' rfl).1]
  | vec k t =>
    cases ty' with
    | scalar => cases hv
    | svec => cases h'
    | ptr => cases hv
    | vec k' t' =>
      obtain ⟨a, ha, e⟩ := Option.map_eq_some_iff.mp h
      obtain ⟨a', ha', e'⟩ := Option.map_eq_some_iff.mp h'
      rw [← e', List.append_assoc, List.append_assoc] at e
      obtain ⟨rfl, e⟩ := fpTypeName_inj ha ha' e
      rw [toDigits_inj (List.append_cancel_left e)]

/-- What a name says. -/
theorem functionName_ok {r : Rounding} {d : Dispatch} {op : FOp} {ty : Ty} {p : Passing} {n : Str}
    (h : functionName r d op ty p = .ok n) : op ≠ .ignore ∧ ∃ fp, typeName ty = some fp ∧
      n = "prism::".toList ++ (r.ns ++ ((if isVector ty then "::vector::".toList else "::scalar::".toList) ++
        (d.ns ++ ("::".toList ++ ((if isVector ty then p.ns ++ "::".toList else []) ++ (op.name ++ fp)))))) := by
  unfold functionName at h
  split_ifs at h with ho
  refine ⟨ho, ?_⟩
  cases ht : typeName ty with
  | none => rw [ht] at h; cases h
  | some fp =>
    rw [ht] at h
    refine ⟨fp, rfl, ?_⟩
    cases ty with
    | svec => cases ht
    | ptr => cases ht
    | scalar t =>
      obtain rfl := Outcome.ok.inj h
      simp only [isVector, Bool.false_eq_true, if_false, List.append_assoc, List.nil_append]
    | vec k t =>
      obtain rfl := Outcome.ok.inj h
      simp only [isVector, if_true, List.append_assoc]

/-- C78, names.  The name of a function says which rounding, dispatch, operation and type it is
for, and for vectors how they are passed. -/
theorem C78_names {r r' : Rounding} {d d' : Dispatch} {op op' : FOp} {ty ty' : Ty} {p p' : Passing}
    {n : Str} (h : functionName r d op ty p = .ok n) (h' : functionName r' d' op' ty' p' = .ok n) :
    r = r' ∧ d = d' ∧ op = op' ∧ ty = ty' ∧ (isVector ty = true → p = p') := by
  obtain ⟨ho, fp, ht, e⟩ := functionName_ok h
  obtain ⟨ho', fp', ht', e'⟩ := functionName_ok h'
  have e0 := e.symm.trans e'
  clear e e'
  obtain ⟨hr, e1⟩ := ns_inj (List.append_cancel_left e0)
  have hlen : (if isVector ty then "::vector::".toList else "::scalar::".toList).length =
      (if isVector ty' then "::vector::".toList else "::scalar::".toList).length := by
    cases isVector ty <;> cases isVector ty' <;> decide
  obtain ⟨ek, e2⟩ := List.append_inj e1 hlen
  have hv : isVector ty = isVector ty' := by
    revert ek
    cases isVector ty <;> cases isVector ty' <;> decide
  obtain ⟨hd, e3⟩ := dns_inj e2
  have e4 := List.append_cancel_left e3
  rw [← hv] at e4
  cases hb : isVector ty with
  | true =>
    rw [hb] at e4
    simp only [if_true, List.append_assoc] at e4
    obtain ⟨hp, e5⟩ := pns_inj e4
    obtain ⟨hop, rfl⟩ := opname_inj ho ho' (List.append_cancel_left e5)
    exact ⟨hr, hd, hop, typeName_inj ht ht' hv, fun _ => hp⟩
  | false =>
    rw [hb] at e4
    simp only [Bool.false_eq_true, if_false, List.nil_append] at e4
    obtain ⟨hop, rfl⟩ := opname_inj ho ho' e4
    exact ⟨hr, hd, hop, typeName_inj ht ht' hv, fun h => by cases h⟩

example : functionName .upDown .dynamic .fma (.vec 16 .float) .byPointer =
      .ok "prism::ud::vector::dynamic_dispatch::variable::fmaf32x16".toList ∧
    functionName .stochasticRounding .static .div (.scalar .double) .byPointer =
      .ok "prism::sr::scalar::static_dispatch::divf64".toList := by decide +kernel

/-- Every supported instruction has a name. -/
theorem C78_named (r : Rounding) (d : Dispatch) (op : FOp) (t : STy) (ht : t = .float ∨ t = .double)
    (p : Passing) (ho : op ≠ .ignore) (n : Nat) :
    (∃ s, functionName r d op (.scalar t) p = .ok s) ∧ ∃ s, functionName r d op (.vec n t) p = .ok s := by
  unfold functionName
  rw [if_neg ho, if_neg ho]
  rcases ht with rfl | rfl
  · exact ⟨⟨_, rfl⟩, ⟨_, rfl⟩⟩
  · exact ⟨⟨_, rfl⟩, ⟨_, rfl⟩⟩

/-! ## The library -/

theorem shortName_paren (s t : Str) (h : '(' ∉ s) : shortName (s ++ '(' :: t) = s := by
  unfold shortName
  rw [List.takeWhile_append_of_pos (fun c hc => by
    rw [bne_iff_ne]; rintro rfl; exact h hc)]
  rw [List.takeWhile_cons_of_neg (by decide), List.append_nil]

theorem shortName_plain (s : Str) (h : '(' ∉ s) : shortName s = s := by
  unfold shortName
  induction s with
  | nil => rfl
  | cons c s ih =>
    simp only [List.mem_cons, not_or] at h
    rw [List.takeWhile_cons_of_pos (by rw [bne_iff_ne]; exact fun e => h.1 e.symm), ih h.2]

/-- A definition of that name. -/
def Names (demangle : Str → Str) (name : Str) (f : Fn) : Prop :=
  f.declaration = false ∧ shortName (demangle f.mangled) = name

theorem shortNames_snoc (demangle : Str → Str) (l : List Fn) (f : Fn) (name : Str) :
    (Names demangle name f → shortNames demangle (l ++ [f]) name = some f.mangled) ∧
    (¬ Names demangle name f → shortNames demangle (l ++ [f]) name = shortNames demangle l name) := by
  unfold shortNames Names
  rw [List.foldl_append, List.foldl_cons, List.foldl_nil]
  constructor
  · rintro ⟨h1, h2⟩
    rw [h1, if_neg (by decide), if_pos h2.symm]
  · intro h
    cases hd : f.declaration with
    | true => rw [if_pos rfl]
    | false => rw [if_neg (by decide), if_neg (fun e => h ⟨hd, e.symm⟩)]

/-- The name maps to the last definition. -/
theorem shortNames_spec (demangle : Str → Str) (l : List Fn) (name : Str) :
    (shortNames demangle l name = none ∧ ∀ f ∈ l, ¬ Names demangle name f) ∨
    ∃ a f b, l = a ++ f :: b ∧ Names demangle name f ∧ (∀ g ∈ b, ¬ Names demangle name g) ∧
      shortNames demangle l name = some f.mangled := by
  induction l using List.reverseRecOn with
  | nil => exact .inl ⟨rfl, fun f hf => absurd hf List.not_mem_nil⟩
  | append_singleton l f ih =>
    obtain ⟨h1, h2⟩ := shortNames_snoc demangle l f name
    by_cases hf : Names demangle name f
    · exact .inr ⟨l, f, [], rfl, hf, fun g hg => absurd hg List.not_mem_nil, h1 hf⟩
    · rw [h2 hf]
      rcases ih with ⟨e, hn⟩ | ⟨a, g, b, rfl, hg, hb, e⟩
      · refine .inl ⟨e, fun g hg => ?_⟩
        rcases List.mem_append.mp hg with hg | hg
        · exact hn g hg
        · rw [List.mem_singleton.mp hg]; exact hf
      · refine .inr ⟨a, g, b ++ [f], by simp, hg, fun k hk => ?_, e⟩
        rcases List.mem_append.mp hk with hk | hk
        · exact hb k hk
        · rw [List.mem_singleton.mp hk]; exact hf

theorem find_mangled {l : List Fn} (hm : (l.map Fn.mangled).Nodup) {f : Fn} (hf : f ∈ l) :
    (l.find? fun g => decide (g.mangled = f.mangled)) = some f := by
  induction l with
  | nil => exact absurd hf List.not_mem_nil
  | cons a l ih =>
    rw [List.map_cons, List.nodup_cons] at hm
    rcases List.mem_cons.mp hf with rfl | hf
    · rw [List.find?_cons_of_pos (by simp)]
    · rw [List.find?_cons_of_neg, ih hm.2 hf]
      rw [decide_eq_true_eq]
      intro e
      exact hm.1 (e ▸ List.mem_map_of_mem hf)

/-- C78, lookup.  A function is found exactly if the library has a definition of that name; it is
one, and the last one. -/
theorem C78_lookup (demangle : Str → Str) (lib : List Fn) (hm : (lib.map Fn.mangled).Nodup)
    (name : Str) :
    (getFunction demangle lib name = none ↔ ∀ f ∈ lib, ¬ Names demangle name f) ∧
    ∀ f, getFunction demangle lib name = some f ↔ ∃ a b, lib = a ++ f :: b ∧ Names demangle name f ∧
      ∀ g ∈ b, ¬ Names demangle name g := by
  unfold getFunction
  rcases shortNames_spec demangle lib name with ⟨e, hn⟩ | ⟨a, f, b, rfl, hf, hb, e⟩
  · rw [e]
    refine ⟨⟨fun _ => hn, fun _ => rfl⟩, fun f => ⟨fun h => (by cases h), ?_⟩⟩
    rintro ⟨a, b, rfl, hf, -⟩
    exact absurd hf (hn f (by simp))
  · rw [e]
    dsimp only
    rw [find_mangled hm (f := f) (by simp)]
    refine ⟨⟨fun h => (by cases h), fun h => absurd hf (h f (by simp))⟩, fun g => ⟨?_, ?_⟩⟩
    · rintro h
      obtain rfl := Option.some.inj h
      exact ⟨a, b, rfl, hf, hb⟩
    · rintro ⟨a', b', e', hg, hb'⟩
      have : ∀ (a a' b b' : List Fn), a ++ f :: b = a' ++ g :: b' → (∀ k ∈ b, ¬ Names demangle name k) →
          (∀ k ∈ b', ¬ Names demangle name k) → f = g := by
        intro a
        induction a with
        | nil =>
          intro a' b b' e hb hb'
          cases a' with
          | nil => exact (List.cons.inj e).1
          | cons x a' =>
            have e2 := (List.cons.inj e).2
            exact absurd hg (hb g (by rw [e2]; simp))
        | cons x a ih =>
          intro a' b b' e hb hb'
          cases a' with
          | nil =>
            have e2 := (List.cons.inj e).2
            exact absurd hf (hb' f (by rw [← e2]; simp))
          | cons y a' => exact ih a' b b' (List.cons.inj e).2 hb hb'
      rw [this a a' b b' e' hb hb']

/-- A definition whose name is unique is found. -/
theorem C78_unique (demangle : Str → Str) (lib : List Fn) (hm : (lib.map Fn.mangled).Nodup)
    (name args : Str) (hn : '(' ∉ name) (f : Fn) (hf : f ∈ lib) (hd : f.declaration = false)
    (hname : demangle f.mangled = name ++ '(' :: args)
    (huniq : ∀ g ∈ lib, g.declaration = false → shortName (demangle g.mangled) = name → g = f) :
    getFunction demangle lib name = some f := by
  have hfn : Names demangle name f := ⟨hd, by rw [hname, shortName_paren _ _ hn]⟩
  obtain ⟨h1, h2⟩ := C78_lookup demangle lib hm name
  cases h : getFunction demangle lib name with
  | none => exact absurd hfn (h1.mp h f hf)
  | some g =>
    obtain ⟨a, b, e, hg, -⟩ := (h2 g).mp h
    rw [huniq g (by rw [e]; simp) hg.1 hg.2]

example : getFunction (fun | ['A'] => "f(int)".toList | s => s)
      [⟨['A'], false, ⟨[], none⟩, none⟩, ⟨['f'], true, ⟨[], none⟩, none⟩] ['f'] =
    some ⟨['A'], false, ⟨[], none⟩, none⟩ := by decide

/-- C78 is false of overloaded functions: the last definition is taken, whatever its parameters. -/
theorem C78_overload_wrong (demangle : Str → Str) (lib : List Fn) (name args : Str) (hn : '(' ∉ name)
    (f : Fn) (hm : ((lib ++ [f]).map Fn.mangled).Nodup) (hd : f.declaration = false)
    (hname : demangle f.mangled = name ++ '(' :: args) :
    getFunction demangle (lib ++ [f]) name = some f :=
  ((C78_lookup demangle (lib ++ [f]) hm name).2 f).mpr
    ⟨lib, [], rfl, ⟨hd, by rw [hname, shortName_paren _ _ hn]⟩, fun g hg => absurd hg List.not_mem_nil⟩

example :
    let demangle : Str → Str := fun | ['A'] => "f(double)".toList | ['B'] => "f(char*)".toList | s => s
    let good : Fn := ⟨['A'], false, ⟨[.scalar .double], none⟩, none⟩
    let bad : Fn := ⟨['B'], false, ⟨[.ptr], none⟩, none⟩
    getFunction demangle [good, bad] ['f'] = some bad := by decide

end Verif.Prism
