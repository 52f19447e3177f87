import Verif.Vfi.Props
import Verif.Vprec.Props2
import Verif.Stdlib.Props

/-! # Function instrumentation: rounding of arguments (C13) and observed bounds (C53) -/

namespace Verif.Vfi
open Verif Verif.Fp Verif.Vprec Verif.Vprec.Config

/-! ## C13 -/

/-- How many times the memory of an argument is treated. -/
def Arg.times (a : Arg) : Nat :=
  match a.ty with
  | .float => 1 | .double => 1 | .floatPtr => a.size | .doublePtr => a.size

/-- The first element is related to the new first element by `R`, the others are untouched. -/
def HeadOnly (R : Bits → Bits → Prop) (n : Nat) (m m' : Option (List Bits)) : Prop :=
  match m with
  | none => m' = none
  | some [] => m' = some []
  | some (v :: rest) => ∃ v', m' = some (v' :: rest) ∧ (0 < n → R v v') ∧ (n = 0 → v' = v)

/-- A record whose lengths the rounding accepts for that type. -/
structure ArgData.Ok (sem : ShiftSem) (ty : FTy) (d : ArgData) : Prop where
  e1 : 2 ≤ d.expLen
  e2 : d.expLen ≤ ty.fmt.ew
  m1 : 1 ≤ d.manLen
  m2 : d.manLen ≤ ty.fmt.mw
  m3 : d.manLen < ty.fmt.mw ∨ sem = .wrap

theorem fty_isC (ty : FTy) : IsC ty.fmt ty.width := by
  cases ty <;> simp [IsC, FTy.fmt, FTy.width]

theorem touch_round {sem : ShiftSem} {c : Cfg} {inp : Bool} {ty : FTy} {e m : Int} {v : Bits} {rest : List Bits} {d : ArgData}
    {s' : List Bits × ArgData} (h : touch sem c inp false true ty e m (v :: rest, d) = .ok s') :
    ∃ v', roundBinary sem ty.fmt ty.width v inp c.ctx e.toNat m = .ok v' ∧ s'.1 = v' :: rest := by
  unfold touch roundFirst at h
  simp only [Bool.not_false, Bool.and_self, if_true] at h
  obtain ⟨mem, h1, h⟩ := bind_ok_inv h
  obtain ⟨v', h2, h1⟩ := bind_ok_inv h1
  simp only [Outcome.pure_eq, Outcome.ok.injEq] at h1
  subst h1
  simp only at h
  obtain ⟨d', -, h⟩ := bind_ok_inv h
  simp only [Outcome.pure_eq, Outcome.ok.injEq] at h
  subst h
  exact ⟨v', h2, rfl⟩

theorem touch_skip {sem : ShiftSem} {c : Cfg} {inp new mf : Bool} {ty : FTy} {e m : Int} {s s' : List Bits × ArgData}
    (hoff : (!new && mf) = false) (h : touch sem c inp new mf ty e m s = .ok s') : s'.1 = s.1 := by
  unfold touch roundFirst at h
  obtain ⟨mem, h1, h⟩ := bind_ok_inv h
  split at h1
  · cases h1
  · rename_i v rest hs
    simp only [hoff] at h1
    simp only [Bool.false_eq_true, if_false, Outcome.ok.injEq] at h1
    subst h1
    simp only at h
    obtain ⟨d', -, h⟩ := bind_ok_inv h
    simp only [Outcome.pure_eq, Outcome.ok.injEq] at h
    subst h
    exact hs.symm

theorem loop_skip {sem : ShiftSem} {c : Cfg} {inp new mf : Bool} {ty : FTy} {e m : Int} (hoff : (!new && mf) = false) (n : Nat) :
    ∀ s s', ptrLoop sem c inp new mf ty e m n s = .ok s' → s'.1 = s.1 := by
  induction n with
  | zero => intro s s' h; simp only [ptrLoop, Outcome.ok.injEq] at h; rw [h]
  | succ n ih =>
    intro s s' h
    rw [ptrLoop] at h
    obtain ⟨s1, h1, h⟩ := bind_ok_inv h
    rw [ih _ _ h, touch_skip hoff h1]

theorem loop_fix {sem : ShiftSem} {c : Cfg} {inp : Bool} {ty : FTy} {e m : Int} {v : Bits} {rest : List Bits}
    (hv : roundBinary sem ty.fmt ty.width v inp c.ctx e.toNat m = .ok v) (n : Nat) :
    ∀ s s', s.1 = v :: rest → ptrLoop sem c inp false true ty e m n s = .ok s' → s'.1 = v :: rest := by
  induction n with
  | zero => intro s s' hs h; simp only [ptrLoop, Outcome.ok.injEq] at h; rw [← h]; exact hs
  | succ n ih =>
    intro s s' hs h
    rw [ptrLoop] at h
    obtain ⟨s1, h1, h⟩ := bind_ok_inv h
    have : s = (v :: rest, s.2) := Prod.ext hs rfl
    rw [this] at h1
    obtain ⟨v', h2, h3⟩ := touch_round h1
    rw [hv] at h2
    injection h2 with h2
    subst h2
    exact ih s1 s' h3 h

theorem loop_round {sem : ShiftSem} {c : Cfg} {inp : Bool} {ty : FTy} {d0 : ArgData} (hd : d0.Ok sem ty) (habs : c.absErr = false)
    (n : Nat) {v : Bits} {rest : List Bits} {d : ArgData} {s' : List Bits × ArgData} (hv : v.WF ty.fmt)
    (h : ptrLoop sem c inp false true ty d0.expLen d0.manLen n (v :: rest, d) = .ok s') :
    ∃ v', s'.1 = v' :: rest ∧ (0 < n → roundBinary sem ty.fmt ty.width v inp c.ctx d0.expLen.toNat d0.manLen = .ok v') ∧
      (n = 0 → v' = v) := by
  rcases n with _ | n
  · simp only [ptrLoop, Outcome.ok.injEq] at h
    exact ⟨v, by rw [← h], by omega, fun _ => rfl⟩
  · rw [ptrLoop] at h
    obtain ⟨s1, h1, h⟩ := bind_ok_inv h
    obtain ⟨v', h2, h3⟩ := touch_round h1
    have hm : (d0.manLen.toNat : Int) = d0.manLen := Int.toNat_of_nonneg (by have := hd.m1; omega)
    have h2' := h2
    rw [← hm] at h2'
    have hid := C04_idempotent sem ty.fmt ty.width (fty_isC ty) v v' inp inp c.ctx d0.expLen.toNat d0.manLen.toNat habs
      (by have := hd.e1; omega) (by have := hd.e2; omega) (by have := hd.m1; omega) (by have := hd.m2; omega)
      (by rcases hd.m3 with h | h
          · left; omega
          · exact Or.inr h) hv h2' rfl
    rw [hm] at hid
    exact ⟨v', loop_fix hid n s1 s' h3 h, fun _ => h2, by omega⟩

/-- What one argument becomes, when rounding is on. -/
theorem doArg_round {sem : ShiftSem} {c : Cfg} {inp : Bool} {a a' : Arg} {d d' : ArgData} (hd : d.Ok sem a.ty) (habs : c.absErr = false)
    (hwf : ∀ m, a.mem = some m → ∀ v ∈ m, v.WF a.ty.fmt) (h : doArg sem c inp false true a d = .ok (a', d')) :
    a'.ty = a.ty ∧ a'.id = a.id ∧ a'.size = a.size ∧
      HeadOnly (fun v v' => roundBinary sem a.ty.fmt a.ty.width v inp c.ctx d.expLen.toNat d.manLen = .ok v') a.times a.mem a'.mem := by
  rcases a with ⟨ty, id, size, mem⟩
  have key : ∀ (n : Nat) (m : List Bits) (s' : List Bits × ArgData), mem = some m →
      ptrLoop sem c inp false true ty d.expLen d.manLen n (m, d) = .ok s' →
      HeadOnly (fun v v' => roundBinary sem ty.fmt ty.width v inp c.ctx d.expLen.toNat d.manLen = .ok v') n mem (some s'.1) := by
    intro n m s' hm hl
    subst hm
    rcases m with _ | ⟨v, rest⟩
    · rcases n with _ | n
      · simp only [ptrLoop, Outcome.ok.injEq] at hl
        simp [HeadOnly, ← hl]
      · rw [ptrLoop] at hl
        obtain ⟨s1, h1, -⟩ := bind_ok_inv hl
        simp [touch, roundFirst] at h1
    · obtain ⟨v', h1, h2, h3⟩ := loop_round hd habs n (hwf _ rfl v (by simp)) hl
      exact ⟨v', by rw [h1], h2, h3⟩
  have one : ∀ (m : List Bits) (s' : List Bits × ArgData), mem = some m →
      touch sem c inp false true ty d.expLen d.manLen (m, d) = .ok s' →
      HeadOnly (fun v v' => roundBinary sem ty.fmt ty.width v inp c.ctx d.expLen.toNat d.manLen = .ok v') 1 mem (some s'.1) := by
    intro m s' hm hl
    refine key 1 m s' hm ?_
    rw [ptrLoop, hl]; rfl
  rcases mem with _ | m
  · cases ty <;> simp only [doArg] at h
    · cases h
    · cases h
    all_goals
      simp only [Outcome.ok.injEq, Prod.mk.injEq] at h
      obtain ⟨rfl, -⟩ := h
      exact ⟨rfl, rfl, rfl, rfl⟩
  · cases ty <;> simp only [doArg, Bool.false_eq_true, if_false] at h
    all_goals
      obtain ⟨⟨mem', d1⟩, h1, h⟩ := bind_ok_inv h
      simp only [Outcome.pure_eq, Outcome.ok.injEq, Prod.mk.injEq] at h
      obtain ⟨rfl, -⟩ := h
      refine ⟨rfl, rfl, rfl, ?_⟩
      first
        | exact one m _ rfl h1
        | exact key _ m _ rfl h1

theorem doArg_skip {sem : ShiftSem} {c : Cfg} {inp new mf : Bool} {a a' : Arg} {d d' : ArgData} (hoff : (!new && mf) = false)
    (h : doArg sem c inp new mf a d = .ok (a', d')) : a' = a := by
  rcases a with ⟨ty, id, size, mem⟩
  rcases mem with _ | m
  · cases ty <;> simp only [doArg] at h
    · cases h
    · cases h
    all_goals
      simp only [Outcome.ok.injEq, Prod.mk.injEq] at h
      exact h.1.symm
  · cases ty <;> simp only [doArg] at h
    all_goals
      obtain ⟨⟨mem', d1⟩, h1, h⟩ := bind_ok_inv h
      simp only [Outcome.pure_eq, Outcome.ok.injEq, Prod.mk.injEq] at h
      obtain ⟨rfl, -⟩ := h
      first
        | rw [show mem' = m from touch_skip hoff h1]
        | rw [show mem' = m from loop_skip hoff _ _ _ h1]

theorem doArgs_rel {sem : ShiftSem} {c : Cfg} {inp new mf : Bool} (P : Arg → ArgData → Arg → Prop)
    (hP : ∀ a d a' d', P a d a' ∨ doArg sem c inp new mf a d ≠ .ok (a', d')) (as : List Arg) :
    ∀ ds as' ds', doArgs sem c inp new mf as ds = .ok (as', ds') → as'.length = as.length ∧
      ∀ (i : Nat) a d, as[i]? = some a → ds[i]? = some d → ∃ a', as'[i]? = some a' ∧ P a d a' := by
  induction as with
  | nil =>
    intro ds as' ds' h
    simp only [doArgs, Outcome.ok.injEq, Prod.mk.injEq] at h
    obtain ⟨rfl, -⟩ := h
    exact ⟨rfl, by simp⟩
  | cons a as ih =>
    intro ds as' ds' h
    rcases ds with _ | ⟨d, ds⟩
    · simp [doArgs] at h
    · rw [doArgs] at h
      obtain ⟨⟨a1, d1⟩, h1, h⟩ := bind_ok_inv h
      obtain ⟨⟨as1, ds1⟩, h2, h⟩ := bind_ok_inv h
      simp only [Outcome.pure_eq, Outcome.ok.injEq, Prod.mk.injEq] at h
      obtain ⟨rfl, -⟩ := h
      obtain ⟨l1, l2⟩ := ih _ _ _ h2
      refine ⟨by simp [l1], ?_⟩
      intro i b e hb he
      rcases i with _ | i
      · simp only [List.getElem?_cons_zero, Option.some.injEq] at hb he
        subst hb he
        refine ⟨a1, rfl, ?_⟩
        rcases hP a d a1 d1 with h | h
        · exact h
        · exact absurd h1 h
      · exact l2 i b e hb he

/-- Arguments are rounded: in this mode, and for a call site known from the profile or from an
earlier call with arguments. -/
def InRounding (st : St) : Prop := (st.cfg.mode = .full ∨ st.cfg.mode = .ib) ∧ (st.inst = .all ∨ st.inst = .arg)
def OutRounding (st : St) : Prop := (st.cfg.mode = .full ∨ st.cfg.mode = .ob) ∧ (st.inst = .all ∨ st.inst = .arg)

/-- The configuration in force when arguments are treated differs from the current one only in
precisions of operations. -/
theorem setOps_ctx {f : Fn} {c c' : Cfg} (h : setOps f c = .ok c') : c'.ctx = c.ctx ∧ c'.absErr = c.absErr := by
  unfold setOps at h
  obtain ⟨c1, h1, h⟩ := bind_ok_inv h
  obtain ⟨c2, h2, h⟩ := bind_ok_inv h
  obtain ⟨c3, h3, h⟩ := bind_ok_inv h
  unfold setPrec64 at h1
  unfold setRange64 at h2
  unfold setPrec32 at h3
  unfold setRange32 at h
  split_ifs at h1 h2 h3 h
  injection h1 with h1; injection h2 with h2; injection h3 with h3; injection h with h
  subst h1 h2 h3 h
  exact ⟨rfl, rfl⟩

/-- **C13 on entry.**  What rounding does to the arguments of a known call site: scalars are
rounded to the precision of their record; of an array only the first element is, all others are
left as they are.  Missing from the full statement: the other elements of an array
(`C13_second_element`). -/
theorem C13_enter_partial (sem : ShiftSem) (st st' : St) (c : Info) (args args' : List Arg) (fn : Fn) (ds : List ArgData)
    (hfp : c.fp = true) (hid : ∀ i, st.tab (hash c.id) = some i → i = c)
    (hfn : st.vmap (hash c.id) = some fn) (hds : fn.inArgs = some ds) (hon : InRounding st) (habs : st.cfg.absErr = false)
    (hok : ∀ (i : Nat) a d, args[i]? = some a → ds[i]? = some d → d.Ok sem a.ty)
    (hwf : ∀ a ∈ args, ∀ m, a.mem = some m → ∀ v ∈ m, v.WF a.ty.fmt)
    (h : enterFn sem c args st = .ok (st', args')) :
    args'.length = args.length ∧ ∀ (i : Nat) a d, args[i]? = some a → ds[i]? = some d →
      ∃ a', args'[i]? = some a' ∧ a'.ty = a.ty ∧
        HeadOnly (fun v v' => roundBinary sem a.ty.fmt a.ty.width v true st.cfg.ctx d.expLen.toNat d.manLen = .ok v')
          a.times a.mem a'.mem := by
  unfold enterFn at h
  have hf : (st.tab (hash c.id)).getD c = c := by
    rcases ht : st.tab (hash c.id) with _ | i
    · rfl
    · exact hid i ht
  rw [hf] at h
  obtain ⟨s, hs, h⟩ := bind_ok_inv h
  rw [if_pos hfp] at h
  have hrd : s.rd s.top = .ok (some c) := by
    unfold Stack.push Stack.wr at hs
    split_ifs at hs with q1 q2
    injection hs with hs; subst hs
    simp [Stack.rd, q2]
  unfold vfiEnter at h
  simp only [hrd, Outcome.bind_ok, hfn, Option.getD_some] at h
  obtain ⟨n, -, h⟩ := bind_ok_inv h
  obtain ⟨cfg, hc, h⟩ := bind_ok_inv h
  have hcc : cfg.ctx = st.cfg.ctx ∧ cfg.mode = st.cfg.mode ∧ cfg.absErr = st.cfg.absErr := by
    split at hc
    · exact ⟨(setOps_ctx hc).1, (setOps_ok hc).2, (setOps_ctx hc).2⟩
    · injection hc with hc; subst hc; exact ⟨rfl, rfl, rfl⟩
  obtain ⟨⟨as1, recs⟩, hw, h⟩ := bind_ok_inv h
  simp only [Outcome.pure_eq, Outcome.ok.injEq, Prod.mk.injEq] at h
  obtain ⟨-, rfl⟩ := h
  have hmf : decide ((cfg.mode = .full ∨ cfg.mode = .ib) ∧ (st.inst = .all ∨ st.inst = .arg)) = true := by
    rw [hcc.2.1]; exact decide_eq_true hon
  rw [hmf] at hw
  unfold withArgs at hw
  simp only [hds, Option.isNone_some, Bool.false_and, Bool.false_eq_true, if_false] at hw
  obtain ⟨⟨as2, ds2⟩, hd, hw⟩ := bind_ok_inv hw
  simp only [Outcome.pure_eq, Outcome.ok.injEq, Prod.mk.injEq] at hw
  obtain ⟨rfl, -⟩ := hw
  obtain ⟨l1, l2⟩ := doArgs_rel (sem := sem) (c := cfg) (inp := true) (new := false) (mf := true)
    (fun a d a' => (d.Ok sem a.ty → (∀ m, a.mem = some m → ∀ v ∈ m, v.WF a.ty.fmt) → a'.ty = a.ty ∧
      HeadOnly (fun v v' => roundBinary sem a.ty.fmt a.ty.width v true st.cfg.ctx d.expLen.toNat d.manLen = .ok v') a.times a.mem a'.mem))
    (by
      intro a d a' d'
      by_cases e : doArg sem cfg true false true a d = .ok (a', d')
      · left
        intro hd hwf
        obtain ⟨e1, -, -, e2⟩ := doArg_round hd (by rw [hcc.2.2]; exact habs) hwf e
        rw [hcc.1] at e2
        exact ⟨e1, e2⟩
      · exact Or.inr e) args ds _ _ hd
  refine ⟨l1, ?_⟩
  intro i a d ha hd'
  obtain ⟨a', e1, e2⟩ := l2 i a d ha hd'
  obtain ⟨e3, e4⟩ := e2 (hok i a d ha hd') (hwf a (List.mem_of_getElem? ha))
  exact ⟨a', e1, e3, e4⟩

/-- **C13 on exit**: the same for outputs. -/
theorem C13_exit_partial (sem : ShiftSem) (st st' : St) (c : Info) (l : List Info) (args args' : List Arg) (fn : Fn) (ds : List ArgData)
    (hfp : c.fp = true) (hst : SRep st.stack (c :: l))
    (hfn : st.vmap (hash c.id) = some fn) (hds : fn.outArgs = some ds) (hon : OutRounding st) (habs : st.cfg.absErr = false)
    (hok : ∀ (i : Nat) a d, args[i]? = some a → ds[i]? = some d → d.Ok sem a.ty)
    (hwf : ∀ a ∈ args, ∀ m, a.mem = some m → ∀ v ∈ m, v.WF a.ty.fmt)
    (h : exitFn sem c args st = .ok (st', args')) :
    args'.length = args.length ∧ ∀ (i : Nat) a d, args[i]? = some a → ds[i]? = some d →
      ∃ a', args'[i]? = some a' ∧ a'.ty = a.ty ∧
        HeadOnly (fun v v' => roundBinary sem a.ty.fmt a.ty.width v false st.cfg.ctx d.expLen.toNat d.manLen = .ok v')
          a.times a.mem a'.mem := by
  unfold exitFn at h
  rw [if_pos hfp] at h
  obtain ⟨⟨st1, as0⟩, h0, h⟩ := bind_ok_inv h
  obtain ⟨sk, -, h⟩ := bind_ok_inv h
  simp only [Outcome.pure_eq, Outcome.ok.injEq, Prod.mk.injEq] at h
  obtain ⟨-, rfl⟩ := h
  unfold vfiExit at h0
  simp only [rd_top hst, rd_parent hst, Outcome.bind_ok] at h0
  obtain ⟨cfg, hc, h0⟩ := bind_ok_inv h0
  have hcc : cfg.ctx = st.cfg.ctx ∧ cfg.mode = st.cfg.mode ∧ cfg.absErr = st.cfg.absErr := by
    unfold restore at hc
    split at hc
    · injection hc with hc; subst hc; exact ⟨rfl, rfl, rfl⟩
    · split at hc
      · split at hc
        · exact ⟨(setOps_ctx hc).1, (setOps_ok hc).2, (setOps_ctx hc).2⟩
        · injection hc with hc; subst hc; exact ⟨rfl, rfl, rfl⟩
      · injection hc with hc; subst hc; exact ⟨rfl, rfl, rfl⟩
  simp only [hfn] at h0
  obtain ⟨⟨as1, recs⟩, hw, h0⟩ := bind_ok_inv h0
  simp only [Outcome.pure_eq, Outcome.ok.injEq, Prod.mk.injEq] at h0
  obtain ⟨-, rfl⟩ := h0
  have hmf : decide ((cfg.mode = .full ∨ cfg.mode = .ob) ∧ (st.inst = .all ∨ st.inst = .arg)) = true := by
    rw [hcc.2.1]; exact decide_eq_true hon
  rw [hmf] at hw
  unfold withArgs at hw
  simp only [hds, Option.isNone_some, Bool.false_and, Bool.false_eq_true, if_false] at hw
  obtain ⟨⟨as2, ds2⟩, hd, hw⟩ := bind_ok_inv hw
  simp only [Outcome.pure_eq, Outcome.ok.injEq, Prod.mk.injEq] at hw
  obtain ⟨rfl, -⟩ := hw
  obtain ⟨l1, l2⟩ := doArgs_rel (sem := sem) (c := cfg) (inp := false) (new := false) (mf := true)
    (fun a d a' => (d.Ok sem a.ty → (∀ m, a.mem = some m → ∀ v ∈ m, v.WF a.ty.fmt) → a'.ty = a.ty ∧
      HeadOnly (fun v v' => roundBinary sem a.ty.fmt a.ty.width v false st.cfg.ctx d.expLen.toNat d.manLen = .ok v') a.times a.mem a'.mem))
    (by
      intro a d a' d'
      by_cases e : doArg sem cfg false false true a d = .ok (a', d')
      · left
        intro hd hwf
        obtain ⟨e1, -, -, e2⟩ := doArg_round hd (by rw [hcc.2.2]; exact habs) hwf e
        rw [hcc.1] at e2
        exact ⟨e1, e2⟩
      · exact Or.inr e) args ds _ _ hd
  refine ⟨l1, ?_⟩
  intro i a d ha hd'
  obtain ⟨a', e1, e2⟩ := l2 i a d ha hd'
  obtain ⟨e3, e4⟩ := e2 (hok i a d ha hd') (hwf a (List.mem_of_getElem? ha))
  exact ⟨a', e1, e3, e4⟩

/-- Outside the modes that round arguments, and on the first call of an unknown call site, no
argument is changed (on entry). -/
theorem C13_enter_unrounded (sem : ShiftSem) (st st' : St) (c : Info) (args args' : List Arg)
    (hid : ∀ i, st.tab (hash c.id) = some i → i = c)
    (hoff : ¬ InRounding st ∨ ∀ fn, st.vmap (hash c.id) = some fn → fn.inArgs = none)
    (h : enterFn sem c args st = .ok (st', args')) : args' = args := by
  unfold enterFn at h
  have hf : (st.tab (hash c.id)).getD c = c := by
    rcases ht : st.tab (hash c.id) with _ | i
    · rfl
    · exact hid i ht
  rw [hf] at h
  obtain ⟨s, hs, h⟩ := bind_ok_inv h
  split at h
  swap
  · simp only [Outcome.pure_eq, Outcome.ok.injEq, Prod.mk.injEq] at h
    exact h.2.symm
  have hrd : s.rd s.top = .ok (some c) := by
    unfold Stack.push Stack.wr at hs
    split_ifs at hs with q1 q2
    injection hs with hs; subst hs
    simp [Stack.rd, q2]
  unfold vfiEnter at h
  simp only [hrd, Outcome.bind_ok] at h
  obtain ⟨n, -, h⟩ := bind_ok_inv h
  obtain ⟨cfg, hc, h⟩ := bind_ok_inv h
  have hcc : cfg.mode = st.cfg.mode := by
    split at hc
    · exact (setOps_ok hc).2
    · injection hc with hc; subst hc; rfl
  obtain ⟨⟨as1, recs⟩, hw, h⟩ := bind_ok_inv h
  simp only [Outcome.pure_eq, Outcome.ok.injEq, Prod.mk.injEq] at h
  obtain ⟨-, rfl⟩ := h
  have all : ∀ {new mf : Bool}, (!new && mf) = false → ∀ as ds as' ds', doArgs sem cfg true new mf as ds = .ok (as', ds') → as' = as := by
    intro new mf hnm as
    induction as with
    | nil => intro ds as' ds' h; simp only [doArgs, Outcome.ok.injEq, Prod.mk.injEq] at h; exact h.1.symm
    | cons a as ih =>
      intro ds as' ds' h
      rcases ds with _ | ⟨d, ds⟩
      · simp [doArgs] at h
      · rw [doArgs] at h
        obtain ⟨⟨a1, d1⟩, h1, h⟩ := bind_ok_inv h
        obtain ⟨⟨as1, ds1⟩, h2, h⟩ := bind_ok_inv h
        simp only [Outcome.pure_eq, Outcome.ok.injEq, Prod.mk.injEq] at h
        rw [← h.1, doArg_skip hnm h1, ih _ _ _ h2]
  unfold withArgs at hw
  simp only at hw
  generalize hrec : (if (((st.vmap (hash c.id)).getD (newFn c)).inArgs.isNone && decide (0 < args.length)) = true then
    some (List.replicate args.length zeroArg) else ((st.vmap (hash c.id)).getD (newFn c)).inArgs) = o at hw
  rcases o with _ | ds'
  · rcases args with _ | ⟨a, as⟩
    · simp only [Outcome.ok.injEq, Prod.mk.injEq] at hw; exact hw.1.symm
    · cases hw
  · have heq := hrec
    simp only at hw
    obtain ⟨⟨as2, ds2⟩, hd, hw⟩ := bind_ok_inv hw
    simp only [Outcome.pure_eq, Outcome.ok.injEq, Prod.mk.injEq] at hw
    obtain ⟨rfl, -⟩ := hw
    refine all ?_ _ _ _ _ hd
    rcases hoff with hoff | hoff
    · have : decide ((cfg.mode = .full ∨ cfg.mode = .ib) ∧ (st.inst = .all ∨ st.inst = .arg)) = false := by
        rw [hcc]; exact decide_eq_false hoff
      rw [this]; simp
    · have hnone : ((st.vmap (hash c.id)).getD (newFn c)).inArgs = none := by
        rcases hv : st.vmap (hash c.id) with _ | fn
        · rfl
        · exact hoff fn hv
      rw [hnone] at heq ⊢
      by_cases hlen : 0 < args.length
      · simp [hlen]
      · simp [hlen] at heq

/-- A state in which the call site `f` has one array argument at 4 bits, and arguments are
rounded. -/
def exSt : St :=
  ⟨stackInit, fun _ => none,
   fun k => if k = hash "f".toList then
      some { newFn (site "f" true) with inArgs := some [⟨"x".toList, 4, 0, 1, 11, 4⟩] } else none,
   { Vprec.Config.init with mode := .ib }, .arg⟩

/-- 1 + 2^-20 -/
def exVal : Bits := ⟨false, 1023, 2 ^ 32⟩

/-- **C13, negation.**  An array of two elements `1 + 2^-20` is passed at 4 bits: the first
becomes 1, the second keeps all its bits although rounding it would give 1. -/
theorem C13_second_element : (enterFn .strict (site "f" true) [⟨.doublePtr, "x".toList, 2, some [exVal, exVal]⟩] exSt >>=
      fun r => Outcome.ok r.2) = .ok [⟨.doublePtr, "x".toList, 2, some [⟨false, 1023, 0⟩, exVal]⟩] ∧
    roundBinary .strict b64 64 exVal true exSt.cfg.ctx 11 4 = .ok ⟨false, 1023, 0⟩ := by
  decide +kernel

/-! ## C53: observed bounds -/

theorem nonFinite_false (F : Fmt) (x : Bits) : nonFinite F x = false := by
  unfold nonFinite
  obtain ⟨h1, h2, h3, h4⟩ := Stdlib.C47_never_detected (Stdlib.raw F x)
  simp [h1, h2, h3, h4]

/-- **C53.**  For a finite value within the range of `int`, the recorded bounds enclose it
afterwards, and enclose what they enclosed before.  Missing from the full statement: larger
values (`C53_large_value`), infinities and NaNs. -/
theorem C53_bounds_partial (sem : ShiftSem) (F : Fmt) (x : Bits) (new : Bool) (d d' : ArgData) (hx : x.exp < F.expInf)
    (h1 : -(2 ^ 31 : ℚ) ≤ x.val F) (h2 : x.val F ≤ 2 ^ 31 - 1) (h : updateBounds sem F x new d = .ok d') :
    (d'.minR : ℚ) ≤ x.val F ∧ x.val F ≤ d'.maxR ∧ (new = false → d'.minR ≤ d.minR ∧ d.maxR ≤ d'.maxR) ∧
      d'.expLen = d.expLen ∧ d'.manLen = d.manLen ∧ d'.id = d.id ∧
      (new = true → d'.minR = ⌊x.val F⌋ ∧ d'.maxR = ⌈x.val F⌉) := by
  have f1 : -(2 ^ 31 : ℤ) ≤ ⌊x.val F⌋ := Int.le_floor.2 (by push_cast; exact h1)
  have f2 : ⌊x.val F⌋ < 2 ^ 31 := Int.floor_lt.2 (by push_cast; linarith)
  have c1 : -(2 ^ 31 : ℤ) ≤ ⌈x.val F⌉ := le_trans f1 (Int.floor_le_ceil _)
  have c2 : ⌈x.val F⌉ < 2 ^ 31 := by
    have : ⌈x.val F⌉ ≤ 2 ^ 31 - 1 := Int.ceil_le.2 (by push_cast; linarith)
    omega
  unfold updateBounds toCInt floorOf ceilOf at h
  simp only [if_pos hx, if_pos (show -(2 ^ 31 : ℤ) ≤ ⌊x.val F⌋ ∧ ⌊x.val F⌋ < 2 ^ 31 from ⟨f1, f2⟩),
    if_pos (show -(2 ^ 31 : ℤ) ≤ ⌈x.val F⌉ ∧ ⌈x.val F⌉ < 2 ^ 31 from ⟨c1, c2⟩), Outcome.bind_ok,
    nonFinite_false, Bool.false_eq_true, if_false, Outcome.pure_eq, Outcome.ok.injEq] at h
  subst h
  have hfl := Int.floor_le (x.val F)
  have hce := Int.le_ceil (x.val F)
  refine ⟨?_, ?_, ?_, rfl, rfl, rfl, ?_⟩
  · simp only
    split_ifs with hc
    · exact hfl
    · push Not at hc
      exact le_trans (by exact_mod_cast hc.1) hfl
  · simp only
    split_ifs with hc
    · exact hce
    · push Not at hc
      exact le_trans hce (by exact_mod_cast hc.1)
  · intro hn
    subst hn
    simp only [Bool.false_eq_true, or_false]
    constructor <;> split_ifs <;> omega
  · intro hn
    subst hn
    simp

/-- **C53, negation.**  The value `2^32` (even with the conversion of x86-64, which does not
trap): the recorded maximum stays at 5. -/
theorem C53_large_value : ∃ x d', x.WF b64 ∧ x.val b64 = 2 ^ 32 ∧
    updateBounds .wrap b64 x false ⟨[], 1, 0, 5, 11, 52⟩ = .ok d' ∧ d'.maxR = 5 :=
  ⟨⟨false, 1055, 0⟩, ⟨[], 1, -(2 ^ 31), 5, 11, 52⟩, by decide +kernel⟩

/-- In strict C the conversion of such a value is undefined, and so is that of a NaN. -/
theorem C53_undefined : updateBounds .strict b64 ⟨false, 1055, 0⟩ false ⟨[], 1, 0, 5, 11, 52⟩ = .ub ∧
    updateBounds .strict b64 ⟨false, 2047, 1⟩ false ⟨[], 1, 0, 5, 11, 52⟩ = .ub := by
  decide +kernel

end Verif.Vfi
