import Verif.Bitmask.Props

/-!
# Bitmask operations and configuration (C24 on whole operations, C25)
-/

namespace Verif.Bitmask
open Verif Verif.Fp

/-! ## Configuration -/

/-- The option sets the precision of the type. -/
def Opt.sets (T : Ty) : Opt → Bool
  | .prec32 _ => T = .f32
  | .prec64 _ => T = .f64
  | _ => false

theorem parseOpt_keeps (T : Ty) (c c' : Ctx) (o : Opt) (ho : o.sets T = false)
    (h : parseOpt c o = .ok c') : c'.prec T = c.prec T ∧ c'.mask T = c.mask T := by
  cases o with
  | prec32 v =>
    cases T
    · simp [Opt.sets] at ho
    · cases v with
      | none => simp [parseOpt] at h
      | some p =>
        simp only [parseOpt, setPrec32] at h
        split at h
        · simp at h
        · rw [if_neg (by omega), maskOf_eq b32 p (by omega)] at h
          simp at h
          subst h
          exact ⟨rfl, rfl⟩
  | prec64 v =>
    cases T
    · cases v with
      | none => simp [parseOpt] at h
      | some p =>
        simp only [parseOpt, setPrec64] at h
        split at h
        · simp at h
        · rw [if_neg (by omega), maskOf_eq b64 p (by omega)] at h
          simp at h
          subst h
          exact ⟨rfl, rfl⟩
    · simp [Opt.sets] at ho
  | mode m =>
    cases m with
    | none => simp [parseOpt] at h
    | some m => simp [parseOpt] at h; subst h; cases T <;> exact ⟨rfl, rfl⟩
  | operator m =>
    cases m with
    | none => simp [parseOpt] at h
    | some m => simp [parseOpt] at h; subst h; cases T <;> exact ⟨rfl, rfl⟩
  | daz => simp [parseOpt] at h; subst h; cases T <;> exact ⟨rfl, rfl⟩
  | ftz => simp [parseOpt] at h; subst h; cases T <;> exact ⟨rfl, rfl⟩

/-- The mask is the one of the configured precision. -/
def Applied (T : Ty) (c : Ctx) : Prop := 1 ≤ c.prec T ∧ maskOf T.fmt (c.prec T) = .ok (c.mask T)

theorem parseOpt_sets (T : Ty) (c c' : Ctx) (o : Opt) (ho : o.sets T = true)
    (h : parseOpt c o = .ok c') : Applied T c' := by
  cases o with
  | prec32 v =>
    cases T
    · cases v with
      | none => simp [parseOpt] at h
      | some p =>
        simp only [parseOpt, setPrec32] at h
        split at h
        · simp at h
        · rw [if_neg (by omega), maskOf_eq b32 p (by omega)] at h
          simp at h
          subst h
          exact ⟨by simp only [Ctx.prec]; omega, maskOf_eq b32 p (by omega)⟩
    · simp [Opt.sets] at ho
  | prec64 v =>
    cases T
    · simp [Opt.sets] at ho
    · cases v with
      | none => simp [parseOpt] at h
      | some p =>
        simp only [parseOpt, setPrec64] at h
        split at h
        · simp at h
        · rw [if_neg (by omega), maskOf_eq b64 p (by omega)] at h
          simp at h
          subst h
          exact ⟨by simp only [Ctx.prec]; omega, maskOf_eq b64 p (by omega)⟩
  | _ => simp [Opt.sets] at ho

theorem cli_applied (T : Ty) (os : List Opt) (c c' : Ctx) (hc : Applied T c)
    (h : cli os c = .ok c') : Applied T c' := by
  induction os generalizing c with
  | nil => simp [cli] at h; exact h ▸ hc
  | cons o os ih =>
    simp only [cli] at h
    cases hp : parseOpt c o with
    | ub => rw [hp] at h; simp at h
    | exit => rw [hp] at h; simp at h
    | ok c1 =>
      rw [hp] at h
      simp only [Outcome.bind_ok] at h
      refine ih c1 ?_ h
      cases ho : o.sets T with
      | true => exact parseOpt_sets T c c1 o ho hp
      | false =>
        obtain ⟨h1, h2⟩ := parseOpt_keeps T c c1 o ho hp
        unfold Applied
        rw [h1, h2]
        exact hc

/-- **C25**, the part that holds: when the command line sets the precision of a type,
wherever among the options, the mask used by the operations is the one of the
precision the information header prints. -/
theorem C25_explicit_partial (T : Ty) (os : List Opt) (c : Ctx) (hs : ∃ o ∈ os, o.sets T = true)
    (h : cli os init = .ok c) : Applied T c := by
  generalize init = c0 at h
  induction os generalizing c0 with
  | nil => simp at hs
  | cons o os ih =>
    simp only [cli] at h
    cases hp : parseOpt c0 o with
    | ub => rw [hp] at h; simp at h
    | exit => rw [hp] at h; simp at h
    | ok c1 =>
      rw [hp] at h
      simp only [Outcome.bind_ok] at h
      cases ho : o.sets T with
      | true => exact cli_applied T os c1 c (parseOpt_sets T c0 c1 o ho hp) h
      | false =>
        refine ih ?_ c1 h
        obtain ⟨o', ho', hs'⟩ := hs
        rcases List.mem_cons.1 ho' with rfl | hm
        · rw [ho] at hs'; simp at hs'
        · exact ⟨o', hm, hs'⟩

/-- The configuration is never undefined behaviour. -/
theorem C25_cli_defined (os : List Opt) (c : Ctx) : (cli os c).Defined := by
  induction os generalizing c with
  | nil => trivial
  | cons o os ih =>
    simp only [cli]
    have : parseOpt c o = .exit ∨ ∃ c', parseOpt c o = .ok c' := by
      cases o with
      | prec32 v =>
        cases v with
        | none => exact Or.inl rfl
        | some p =>
          simp only [parseOpt, setPrec32]
          by_cases hp : p ≤ 0
          · rw [if_pos hp]; exact Or.inl rfl
          · rw [if_neg hp, if_neg (by omega), maskOf_eq b32 p (by omega)]; exact Or.inr ⟨_, rfl⟩
      | prec64 v =>
        cases v with
        | none => exact Or.inl rfl
        | some p =>
          simp only [parseOpt, setPrec64]
          by_cases hp : p ≤ 0
          · rw [if_pos hp]; exact Or.inl rfl
          · rw [if_neg hp, if_neg (by omega), maskOf_eq b64 p (by omega)]; exact Or.inr ⟨_, rfl⟩
      | mode m => cases m <;> simp [parseOpt]
      | operator m => cases m <;> simp [parseOpt]
      | daz => simp [parseOpt]
      | ftz => simp [parseOpt]
    rcases this with h | ⟨c', h⟩
    · rw [h]; trivial
    · rw [h]; exact ih c'

theorem cli_untouched (T : Ty) (os : List Opt) (c c' : Ctx) (hn : ∀ o ∈ os, o.sets T = false)
    (h : cli os c = .ok c') : c'.prec T = c.prec T ∧ c'.mask T = c.mask T := by
  induction os generalizing c with
  | nil => simp [cli] at h; subst h; exact ⟨rfl, rfl⟩
  | cons o os ih =>
    simp only [cli] at h
    cases hp : parseOpt c o with
    | ub => rw [hp] at h; simp at h
    | exit => rw [hp] at h; simp at h
    | ok c1 =>
      rw [hp] at h
      simp only [Outcome.bind_ok] at h
      obtain ⟨a, b⟩ := ih c1 (fun o' ho' => hn o' (List.mem_cons_of_mem _ ho')) h
      obtain ⟨a', b'⟩ := parseOpt_keeps T c c1 o (hn o (List.mem_cons_self ..)) hp
      exact ⟨a.trans a', b.trans b'⟩

/-- A mask of ones changes nothing. -/
theorem inexact_ones (F : Fmt) (mode : Mode) (op : Operator) (t : Int) (ht : 1 ≤ t) (rnd : Nat)
    (x : Bits) (hx : x.WF F) : inexact F mode op t (maskOne F) rnd x = .ok x := by
  have hone : maskOne F = 2 ^ F.width - 2 ^ 0 := by unfold maskOne; simp
  have hap : applyOp F op (maskOne F) rnd x = x := by
    rw [hone, applyOp_spec F op 0 rnd x hx (by omega)]
    have := lowBits_lt op 0 rnd x.man
    have h0 : lowBits op 0 rnd x.man = 0 := by simpa using this
    rw [h0]
    simp
  unfold inexact
  split
  · rfl
  · have he : effMask F (maskOne F) t x = .ok (maskOne F) := by
      unfold effMask
      split
      · simp only
        split
        · rfl
        · next h =>
          rw [cShl_in .strict F.width _ _
            (F.mw - (F.width - 1 - Nat.log2 x.man - (1 + F.ew) + t.toNat)) (by omega)
            (by unfold Fmt.width; omega)]
          simp only [Outcome.bind_ok, Outcome.pure_eq]
          have hw : F.mw - (F.width - 1 - Nat.log2 x.man - (1 + F.ew) + t.toNat) ≤ F.width := by
            unfold Fmt.width; omega
          generalize F.mw - (F.width - 1 - Nat.log2 x.man - (1 + F.ew) + t.toNat) = n at hw
          unfold maskOne
          rw [highmask _ _ hw, Nat.lor_comm]
          have := or_highmask F.width n 0 hw (by omega)
          rw [pow_zero] at this
          rw [this]
      · rfl
    rw [he]
    simp only [Outcome.bind_ok, Outcome.pure_eq]
    rw [hap]

/-- **C25 fails**: without an explicit precision the backend reports precision 23
(`float`) and 52 (`double`), and no operator, mode, value or random word ever changes
anything: the static masks are still all ones. -/
theorem C25_default_inert (T : Ty) (os : List Opt) (c : Ctx) (hn : ∀ o ∈ os, o.sets T = false)
    (h : cli os init = .ok c) :
    c.prec T = T.fmt.mw ∧
    ∀ (x : Bits) (rnd : Nat), x.WF T.fmt →
      inexact T.fmt c.mode c.op (c.prec T) (c.mask T) rnd x = .ok x := by
  obtain ⟨h1, h2⟩ := cli_untouched T os init c hn h
  have hp : init.prec T = T.fmt.mw := by cases T <;> rfl
  have hm : init.mask T = maskOne T.fmt := by cases T <;> rfl
  refine ⟨h1.trans hp, fun x rnd hx => ?_⟩
  rw [h2, hm]
  exact inexact_ones T.fmt c.mode c.op _ (by rw [h1, hp]; cases T <;> decide) rnd x hx

/-- Setting on the command line the very precision that is the default changes results:
`1 + 2^-23` becomes `1`. -/
theorem C25_default_not_applied :
    ∃ c, cli [.prec32 (some 23)] init = .ok c ∧ c.prec32 = init.prec32 ∧ c.mode = init.mode ∧
      c.op = init.op ∧
      inexact b32 c.mode c.op c.prec32 c.mask32 0 ⟨false, 127, 1⟩ = .ok ⟨false, 127, 0⟩ ∧
      inexact b32 init.mode init.op init.prec32 init.mask32 0 ⟨false, 127, 1⟩ =
        .ok ⟨false, 127, 1⟩ := by
  refine ⟨_, rfl, ?_⟩
  decide +kernel

/-! ## Whole operations -/

/-- `y` is `x` with at most the significant bits after the first `t` changed; zeros,
infinities and NaNs are untouched. -/
def Keeps (F : Fmt) (t : Nat) (x y : Bits) : Prop :=
  y.WF F ∧ y.sign = x.sign ∧ y.exp = x.exp ∧
  y.sig F / 2 ^ dropped F t x = x.sig F / 2 ^ dropped F t x ∧
  ((¬ x.Fin F ∨ x.isZero) → y = x)

theorem keeps_refl (F : Fmt) (t : Nat) (x : Bits) (hx : x.WF F) : Keeps F t x x :=
  ⟨hx, rfl, rfl, rfl, fun _ => rfl⟩

theorem inexactG_keeps {σ : Type} (g : Gen σ) (T : Ty) (c : Ctx) (hc : Applied T c) (s : σ) (x : Bits)
    (hx : x.WF T.fmt) :
    ∃ y s', inexactG g T c s x = .ok (y, s') ∧ Keeps T.fmt (c.prec T).toNat x y := by
  unfold inexactG
  split
  · exact ⟨x, s, rfl, keeps_refl _ _ _ hx⟩
  · generalize (if c.op = Operator.rand then g.next s else (0, s)) = ws
    obtain ⟨w, s'⟩ := ws
    simp only
    by_cases h : ¬ x.Fin T.fmt ∨ x.isZero
    · rw [C24_special T.fmt _ _ _ _ _ x h]
      exact ⟨x, s', rfl, keeps_refl _ _ _ hx⟩
    · have h1 : x.Fin T.fmt := by tauto
      have h2 : ¬ x.isZero := by tauto
      obtain ⟨y, hy, hwf, hs, he, hq, -⟩ := C24_fields T.fmt c.mode c.op (c.prec T) hc.1 (c.mask T)
        (w.toNat % 2 ^ T.fmt.width) hc.2 x hx h1 h2
      rw [hy]
      exact ⟨y, s', rfl, hwf, hs, he, hq, fun h' => absurd h' h⟩

theorem noiseList_keeps {σ : Type} (g : Gen σ) (T : Ty) (c : Ctx) (hc : Applied T c) (s : σ)
    (xs : List Bits) (hx : ∀ x ∈ xs, x.WF T.fmt) :
    ∃ ys s', noiseList g T c s xs = .ok (ys, s') ∧
      List.Forall₂ (Keeps T.fmt (c.prec T).toNat) xs ys := by
  induction xs generalizing s with
  | nil => exact ⟨[], s, rfl, .nil⟩
  | cons x xs ih =>
    obtain ⟨y, s1, h1, k1⟩ := inexactG_keeps g T c hc s x (hx x (List.mem_cons_self ..))
    obtain ⟨ys, s2, h2, k2⟩ := ih s1 (fun x' h' => hx x' (List.mem_cons_of_mem _ h'))
    refine ⟨y :: ys, s2, ?_, .cons k1 k2⟩
    simp only [noiseList]
    rw [h1]
    simp only [Outcome.bind_ok]
    rw [h2]
    rfl

theorem daz_wf (F : Fmt) (x : Bits) (hx : x.WF F) : (Fp.daz F x).WF F := by
  unfold Fp.daz
  split
  · exact ⟨by simp [zeroBits], by simp [zeroBits]⟩
  · exact hx

/-- **C24** on whole operations: with an explicit precision, for every hardware
operation, generator state and operands, the operation is defined; operands are
perturbed exactly in modes `ib` and `full`, the result exactly in modes `ob` and
`full`, and each perturbation keeps the first `t` significant bits.  Flushing acts
before (`daz`) and after (`ftz`). -/
theorem C24_operation {σ : Type} (g : Gen σ) (T : Ty) (f : List Bits → Bits) (c : Ctx)
    (hc : Applied T c) (s : σ) (args : List Bits) (ha : ∀ x ∈ args, x.WF T.fmt)
    (hf : ∀ l, (∀ x ∈ l, x.WF T.fmt) → (f l).WF T.fmt) :
    ∃ args' res s', let ops := if c.daz then args.map (Fp.daz T.fmt) else args
      opN g T f c s args = .ok (if c.ftz then Fp.daz T.fmt res else res, s') ∧
      List.Forall₂ (Keeps T.fmt (c.prec T).toNat) ops args' ∧
      Keeps T.fmt (c.prec T).toNat (f args') res ∧
      (c.mode = .ieee ∨ c.mode = .ob → args' = ops) ∧
      (c.mode = .ieee ∨ c.mode = .ib → res = f args') := by
  have hops : ∀ x ∈ (if c.daz then args.map (Fp.daz T.fmt) else args), x.WF T.fmt := by
    split
    · intro x hx
      obtain ⟨x', hx', rfl⟩ := List.mem_map.1 hx
      exact daz_wf _ _ (ha x' hx')
    · exact ha
  unfold opN
  simp only
  generalize (if c.daz then args.map (Fp.daz T.fmt) else args) = ops at hops
  have hstep1 : ∃ args' s1, (if c.mode = .ib ∨ c.mode = .full then noiseList g T c s ops
      else .ok (ops, s)) = .ok (args', s1) ∧
      List.Forall₂ (Keeps T.fmt (c.prec T).toNat) ops args' ∧
      (c.mode = .ieee ∨ c.mode = .ob → args' = ops) := by
    split
    · next hm =>
      obtain ⟨ys, s1, h, k⟩ := noiseList_keeps g T c hc s ops hops
      exact ⟨ys, s1, h, k, fun h' => by rcases hm with hm | hm <;> simp [hm] at h'⟩
    · refine ⟨ops, s, rfl, ?_, fun _ => rfl⟩
      rw [List.forall₂_same]
      exact fun x hx => keeps_refl _ _ _ (hops x hx)
  obtain ⟨args', s1, e1, k1, m1⟩ := hstep1
  have hwf' : ∀ x ∈ args', x.WF T.fmt := by
    intro y hy
    clear e1 m1
    induction k1 with
    | nil => simp at hy
    | cons hk _ ih =>
      rcases List.mem_cons.1 hy with rfl | hm
      · exact hk.1
      · exact ih (fun x hx => hops x (List.mem_cons_of_mem _ hx)) hm
  rw [e1]
  simp only [Outcome.bind_ok]
  have hstep2 : ∃ res s2, (if c.mode = .ob ∨ c.mode = .full then inexactG g T c s1 (f args')
      else .ok (f args', s1)) = .ok (res, s2) ∧ Keeps T.fmt (c.prec T).toNat (f args') res ∧
      (c.mode = .ieee ∨ c.mode = .ib → res = f args') := by
    split
    · next hm =>
      obtain ⟨y, s2, h, k⟩ := inexactG_keeps g T c hc s1 (f args') (hf _ hwf')
      exact ⟨y, s2, h, k, fun h' => by rcases hm with hm | hm <;> simp [hm] at h'⟩
    · exact ⟨f args', s1, rfl, keeps_refl _ _ _ (hf _ hwf'), fun _ => rfl⟩
  obtain ⟨res, s2, e2, k2, m2⟩ := hstep2
  rw [e2]
  exact ⟨args', res, s2, rfl, k1, k2, m1, m2⟩

/-- A constant generator, for examples. -/
def zeros : Gen Unit := ⟨fun _ => (0, ())⟩

/-- **C24 fails for casts** with operator `one`: the bits are filled in the `double`
that holds the converted value, and the conversion back to `float` then rounds up.
With precision 23 in mode `ob` the cast of `1 + 2^-23` is `1 + 2^-22`, whose first 23
significant bits differ, and the cast of the largest float is infinite. -/
theorem C24_cast_wrong :
    ∃ c, cli [.prec64 (some 23), .operator (some .one)] init = .ok c ∧
      c.mode = .ob ∧
      castOp zeros c () ⟨false, 1023, 2 ^ 29⟩ = .ok (⟨false, 127, 2⟩, ()) ∧
      fconv b64 b32 ⟨false, 1023, 2 ^ 29⟩ = ⟨false, 127, 1⟩ ∧
      ¬ Keeps b32 23 ⟨false, 127, 1⟩ ⟨false, 127, 2⟩ ∧
      castOp zeros c () ⟨false, 1150, 2 ^ 52 - 2 ^ 29⟩ = .ok (infBits b32 false, ()) ∧
      (fconv b64 b32 ⟨false, 1150, 2 ^ 52 - 2 ^ 29⟩).Fin b32 := by
  refine ⟨_, rfl, rfl, ?_⟩
  refine ⟨by decide +kernel, by decide +kernel, ?_, by decide +kernel, by decide +kernel⟩
  rintro ⟨-, -, -, h, -⟩
  revert h
  decide +kernel

/-- `0.75 + 0.625` at 3 bits, result truncated to `1.25`. -/
example : ∃ c, cli [.prec32 (some 3)] init = .ok c ∧
    opN zeros .f32 (fun l => fadd b32 (l.headD (zeroBits false)) (l.getD 1 (zeroBits false))) c ()
      [⟨false, 126, 2 ^ 22⟩, ⟨false, 126, 2 ^ 21⟩] = .ok (⟨false, 127, 2 ^ 21⟩, ()) := by
  refine ⟨_, rfl, ?_⟩
  decide +kernel

end Verif.Bitmask
