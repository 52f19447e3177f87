import Verif.Vfi.Lemmas

/-! # Function instrumentation: call stack (C14), scoping of precision (C11), call counts (C52) -/

namespace Verif.Vfi
open Verif Verif.Fp Verif.Vprec.Config

/-! ## Traces -/

/-- The functions running after a trace that starts with `l` running (innermost first);
`none` when the trace is not well nested. -/
def shadow : List Info → List Ev → Option (List Info)
  | l, [] => some l
  | l, .enter c _ :: es => shadow (c :: l) es
  | [], .exit _ _ :: _ => none
  | d :: l, .exit c _ :: es => if c = d then shadow l es else none

/-- The call sites of a trace. -/
def sites : List Ev → List Info
  | [] => []
  | .enter c _ :: es => c :: sites es
  | .exit c _ :: es => c :: sites es

/-- No two different call sites have the same string hash. -/
def NoCollision (C : List Info) : Prop := ∀ c ∈ C, ∀ d ∈ C, hash c.id = hash d.id → c = d

/-! ## Invariant -/

/-- Operation precision the profile prescribes for a hash value. -/
def prescribed (profile : Nat → Option Fn) (k : Nat) : Int × Int × Int × Int :=
  match profile k with
  | some f => f.ops
  | none => (52, 11, 23, 8)

structure Inv (profile : Nat → Option Fn) (C : List Info) (st : St) (l : List Info) : Prop where
  stack : SRep st.stack l
  tab : ∀ k i, st.tab k = some i → i ∈ C ∧ hash i.id = k
  sub : ∀ f ∈ l, f ∈ C
  ops : ∀ k f, st.vmap k = some f → f.ops = prescribed profile k
  prof : ∀ k, (profile k).isSome → (st.vmap k).isSome
  known : ∀ f ∈ l, f.fp = true → (st.vmap (hash f.id)).isSome

theorem getD_ops {profile : Nat → Option Fn} {C : List Info} {st : St} {l : List Info} (h : Inv profile C st l) (f : Info) :
    ((st.vmap (hash f.id)).getD (newFn f)).ops = prescribed profile (hash f.id) := by
  rcases hv : st.vmap (hash f.id) with _ | fn
  · unfold prescribed
    rcases hp : profile (hash f.id) with _ | g
    · rfl
    · have := h.prof (hash f.id) (by simp [hp]); simp [hv] at this
  · exact h.ops _ _ hv

theorem put_isSome {α : Type} (m : Nat → Option α) (k j : Nat) (v : α) (h : (m j).isSome) : (put m k v j).isSome := by
  unfold put; split
  · rfl
  · exact h

theorem enter_inv {profile : Nat → Option Fn} {C : List Info} (hC : NoCollision C) {sem : ShiftSem} {st st' : St} {l : List Info} {c : Info} {args args' : List Arg}
    (h : Inv profile C st l) (hc : c ∈ C) (e : enterFn sem c args st = .ok (st', args')) :
    Inv profile C st' (c :: l) ∧ st'.inst = st.inst ∧
      (c.fp = true → setsOps st.inst c = true → opsOf st'.cfg = prescribed profile (hash c.id)) ∧
      (c.fp = false → st'.cfg = st.cfg) := by
  unfold enterFn at e
  have hf : (st.tab (hash c.id)).getD c = c := by
    rcases ht : st.tab (hash c.id) with _ | i
    · rfl
    · obtain ⟨h1, h2⟩ := h.tab _ _ ht
      exact hC i h1 c hc h2
  rw [hf] at e
  obtain ⟨s, hs, e⟩ := bind_ok_inv e
  have hrep := push_inv h.stack hs
  have htab : ∀ k i, put st.tab (hash c.id) c k = some i → i ∈ C ∧ hash i.id = k := by
    intro k i hk
    unfold put at hk
    split at hk
    · rename_i hkk
      injection hk with hk; subst hk; exact ⟨hc, hkk.symm⟩
    · exact h.tab k i hk
  have hsub : ∀ f ∈ c :: l, f ∈ C := by
    intro f hf'
    rcases List.mem_cons.1 hf' with rfl | hf'
    · exact hc
    · exact h.sub f hf'
  by_cases hfp : c.fp = true
  · rw [if_pos hfp] at e
    obtain ⟨e1, e2, e3, ⟨fn', e4, e5, -, -⟩, e6, -⟩ := vfiEnter_ok (st := { st with tab := put st.tab (hash c.id) c, stack := s }) (rd_top hrep) e
    simp only at e1 e2 e3 e4 e5 e6
    have hops : fn'.ops = prescribed profile (hash c.id) := by rw [e5]; exact getD_ops h c
    refine ⟨⟨by rw [e1]; exact hrep, by rw [e2]; exact htab, hsub, ?_, ?_, ?_⟩, e3, ?_, ?_⟩
    · intro k f hk
      rw [e4] at hk
      unfold put at hk
      split at hk
      · rename_i hkk; injection hk with hk; subst hk; rw [hkk]; exact hops
      · exact h.ops k f hk
    · intro k hk; rw [e4]; exact put_isSome _ _ _ _ (h.prof k hk)
    · intro f hf' hffp
      rw [e4]
      rcases List.mem_cons.1 hf' with rfl | hf'
      · simp [put]
      · exact put_isSome _ _ _ _ (h.known f hf' hffp)
    · intro _ hset
      rw [e6 hset]; exact getD_ops h c
    · intro hn; rw [hfp] at hn; cases hn
  · rw [if_neg hfp] at e
    simp only [Outcome.pure_eq, Outcome.ok.injEq, Prod.mk.injEq] at e
    obtain ⟨e, -⟩ := e
    subst e
    refine ⟨⟨hrep, htab, hsub, h.ops, h.prof, ?_⟩, rfl, fun hn => absurd hn hfp, fun _ => rfl⟩
    intro f hf' hffp
    rcases List.mem_cons.1 hf' with rfl | hf'
    · exact absurd hffp hfp
    · exact h.known f hf' hffp

theorem exit_inv {profile : Nat → Option Fn} {C : List Info} {sem : ShiftSem} {st st' : St} {l : List Info} {c : Info} {args args' : List Arg}
    (h : Inv profile C st (c :: l)) (e : exitFn sem c args st = .ok (st', args')) :
    Inv profile C st' l ∧ st'.inst = st.inst ∧
      (c.fp = true → ∀ p, l.head? = some p → p.fp = true → setsOps st.inst p = true →
        opsOf st'.cfg = prescribed profile (hash p.id)) ∧
      (c.fp = false → st'.cfg = st.cfg) := by
  unfold exitFn at e
  obtain ⟨⟨st1, as⟩, e0, e⟩ := bind_ok_inv e
  by_cases hfp : c.fp = true
  · rw [if_pos hfp] at e0
    obtain ⟨e1, e2, e3, ⟨fn, fn', f1, f2, f3, -, -⟩, e5⟩ := vfiExit_ok (rd_top h.stack) (rd_parent h.stack) e0
    obtain ⟨s, p1, p2⟩ := pop_rep h.stack
    simp only [e1, p1, Outcome.bind_ok, Outcome.pure_eq, Outcome.ok.injEq, Prod.mk.injEq] at e
    obtain ⟨e, -⟩ := e
    subst e
    refine ⟨⟨p2, by simp only [e2]; exact h.tab, fun f hf => h.sub f (List.mem_cons_of_mem _ hf), ?_, ?_, ?_⟩, e3, ?_, ?_⟩
    · intro k f hk
      simp only [f2] at hk
      unfold put at hk
      split at hk
      · rename_i hkk; injection hk with hk; subst hk; rw [hkk, f3]; exact h.ops _ _ f1
      · exact h.ops k f hk
    · intro k hk; simp only [f2]; exact put_isSome _ _ _ _ (h.prof k hk)
    · intro f hf' hffp
      simp only [f2]
      exact put_isSome _ _ _ _ (h.known f (List.mem_cons_of_mem _ hf') hffp)
    · intro _ p hp hpfp hset
      have hpl : p ∈ l := List.mem_of_mem_head? hp
      obtain ⟨pf, hpf⟩ := Option.isSome_iff_exists.1 (h.known p (List.mem_cons_of_mem _ hpl) hpfp)
      rw [show opsOf st1.cfg = pf.ops from e5 p pf hp hset hpf]
      exact h.ops _ _ hpf
    · intro hn; rw [hfp] at hn; cases hn
  · rw [if_neg hfp] at e0
    simp only [Outcome.pure_eq, Outcome.ok.injEq, Prod.mk.injEq] at e0
    obtain ⟨rfl, rfl⟩ := e0
    obtain ⟨s, p1, p2⟩ := pop_rep h.stack
    simp only [p1, Outcome.bind_ok, Outcome.pure_eq, Outcome.ok.injEq, Prod.mk.injEq] at e
    obtain ⟨e, -⟩ := e
    subst e
    exact ⟨⟨p2, h.tab, fun f hf => h.sub f (List.mem_cons_of_mem _ hf), h.ops, h.prof,
      fun f hf => h.known f (List.mem_cons_of_mem _ hf)⟩, rfl, fun hn => absurd hn hfp, fun _ => rfl⟩

theorem init_inv (profile : Nat → Option Fn) (C : List Info) (cfg : Cfg) (m : InstMode) :
    Inv profile C (init profile cfg m) [] :=
  ⟨srep_init, by intro k i h; simp [init] at h, by simp,
    by intro k f h; simp only [init] at h; simp [prescribed, h], fun k h => h, by simp⟩

theorem run_inv {profile : Nat → Option Fn} {C : List Info} (hC : NoCollision C) {sem : ShiftSem} (es : List Ev) :
    ∀ (st st' : St) (l l' : List Info), Inv profile C st l → (∀ c ∈ sites es, c ∈ C) → shadow l es = some l' →
      run sem st es = .ok st' → Inv profile C st' l' := by
  induction es with
  | nil =>
    intro st st' l l' h _ hs hr
    simp only [shadow, Option.some.injEq] at hs
    simp only [run, Outcome.ok.injEq] at hr
    subst hs hr; exact h
  | cons e es ih =>
    intro st st' l l' h hsub hs hr
    rw [run] at hr
    obtain ⟨st1, h1, hr⟩ := bind_ok_inv hr
    rcases e with ⟨c, args⟩ | ⟨c, args⟩
    · rw [step] at h1
      obtain ⟨⟨st2, as⟩, h2, h1⟩ := bind_ok_inv h1
      simp only [Outcome.pure_eq, Outcome.ok.injEq] at h1
      subst h1
      exact ih _ _ _ _ (enter_inv hC h (hsub c (by simp [sites])) h2).1 (fun d hd => hsub d (by simp [sites, hd])) hs hr
    · rw [step] at h1
      obtain ⟨⟨st2, as⟩, h2, h1⟩ := bind_ok_inv h1
      simp only [Outcome.pure_eq, Outcome.ok.injEq] at h1
      subst h1
      rcases l with _ | ⟨d, l⟩
      · simp [shadow] at hs
      · rw [shadow] at hs
        split at hs
        · rename_i hcd
          subst hcd
          exact ih _ _ _ _ (exit_inv h h2).1 (fun d hd => hsub d (by simp [sites, hd])) hs hr
        · cases hs

/-! ## C14 -/

/-- **C14.**  After every well nested trace, cell `top + i` of the call stack holds the `i`-th
running function, innermost first, followed by the NULL sentinel; the stack is back to its
initial position when nothing runs. -/
theorem C14_stack (sem : ShiftSem) (profile : Nat → Option Fn) (cfg : Cfg) (m : InstMode) (es : List Ev) (l : List Info)
    (st : St) (hC : NoCollision (sites es)) (hs : shadow [] es = some l) (hr : run sem (init profile cfg m) es = .ok st) :
    st.stack.top = 4095 - l.length ∧ l.length ≤ 4095 ∧
      ∀ i ≤ l.length, st.stack.rd (st.stack.top + i) = .ok l[i]? := by
  have h := (run_inv hC es _ _ _ _ (init_inv profile (sites es) cfg m) (fun _ h => h) hs hr).stack
  have hl := h.len
  refine ⟨by omega, by omega, fun i hi => ?_⟩
  unfold Stack.rd maxSize
  rw [if_pos (by omega)]
  rcases hx : l[i]? with _ | x
  · have : i = l.length := by
      rw [List.getElem?_eq_none_iff] at hx; omega
    rw [this, show st.stack.top + l.length = 4095 by omega, h.bottom]
  · rw [h.cell i x hx]

/-- **C14, overflow.**  One call beyond 4095 nested ones ends the program. -/
theorem C14_overflow (sem : ShiftSem) (profile : Nat → Option Fn) (cfg : Cfg) (m : InstMode) (es : List Ev) (l : List Info)
    (st : St) (c : Info) (args : List Arg) (hC : NoCollision (sites es)) (hs : shadow [] es = some l)
    (hl : l.length = 4095) (hr : run sem (init profile cfg m) es = .ok st) :
    step sem st (.enter c args) = .exit := by
  have h := (run_inv hC es _ _ _ _ (init_inv profile (sites es) cfg m) (fun _ h => h) hs hr).stack
  simp only [step, enterFn, (push_rep _ h).2 (by omega), Outcome.bind_exit]

/-- Depth of a trace never exceeds the stack. -/
def Shallow (es : List Ev) : Prop := ∀ p, p <+: es → ∀ l, shadow [] p = some l → l.length ≤ 4095

/-- Progress from a state. -/
theorem run_total {profile : Nat → Option Fn} {C : List Info} (hC : NoCollision C) (sem : ShiftSem)
    (hprof : ∀ k, okOps (prescribed profile k)) (es : List Ev) :
    ∀ (st : St) (l l' : List Info) (B : Int), Inv profile C st l → (∀ c ∈ sites es, c ∈ C) → shadow l es = some l' →
      (∀ p, p <+: es → ∀ l1, shadow l p = some l1 → l1.length ≤ 4095) →
      (∀ k f, st.vmap k = some f → f.nCalls ≤ B) → 0 ≤ B → B + es.length < 2 ^ 31 →
      (∀ e ∈ es, ∃ c, e = .enter c [] ∨ e = .exit c []) →
      ∃ st', run sem st es = .ok st' := by
  induction es with
  | nil => intro st l l' B _ _ _ _ _ _ _ _; exact ⟨st, rfl⟩
  | cons e es ih =>
    intro st l l' B h hsub hs hd hB hB0 hlen hargs
    rw [List.length_cons] at hlen
    push_cast at hlen
    have hargs' : ∀ e ∈ es, ∃ c, e = .enter c [] ∨ e = .exit c [] := fun e he => hargs e (List.mem_cons_of_mem _ he)
    rw [run]
    rcases e with ⟨c, args⟩ | ⟨c, args⟩
    · have ha : args = [] := by
        obtain ⟨d, hd | hd⟩ := hargs _ (List.mem_cons_self)
        · injection hd
        · cases hd
      subst ha
      have hlt : l.length < 4095 := by
        have := hd [.enter c []] ⟨es, rfl⟩ (c :: l) rfl
        simp only [List.length_cons] at this; omega
      have hc := hsub c (by simp [sites])
      -- the step succeeds
      have hstep : ∃ st1, enterFn sem c [] st = .ok (st1, []) ∧ (∀ k f, st1.vmap k = some f → f.nCalls ≤ B + 1) := by
        have hf : (st.tab (hash c.id)).getD c = c := by
          rcases ht : st.tab (hash c.id) with _ | i
          · rfl
          · obtain ⟨h1, h2⟩ := h.tab _ _ ht
            exact hC i h1 c hc h2
        obtain ⟨s, hs1, hs2⟩ := (push_rep c h.stack).1 hlt
        unfold enterFn
        rw [hf]
        simp only [hs1, Outcome.bind_ok]
        by_cases hfp : c.fp = true
        · rw [if_pos hfp]
          unfold vfiEnter
          simp only [rd_top hs2, Outcome.bind_ok]
          have hn : ((st.vmap (hash c.id)).getD (newFn c)).nCalls ≤ B := by
            rcases hv : st.vmap (hash c.id) with _ | f
            · exact hB0
            · exact hB _ _ hv
          have hi : incr ((st.vmap (hash c.id)).getD (newFn c)).nCalls = .ok (((st.vmap (hash c.id)).getD (newFn c)).nCalls + 1) := by
            unfold incr; rw [if_pos (by omega)]
          simp only [hi, Outcome.bind_ok]
          have hset : ∃ cfg', (if setsOps st.inst c = true then setOps ((st.vmap (hash c.id)).getD (newFn c)) st.cfg else Outcome.ok st.cfg) = .ok cfg' := by
            split
            · refine setOps_total _ ?_
              rw [getD_ops h c]; exact hprof _
            · exact ⟨_, rfl⟩
          obtain ⟨cfg', hcfg⟩ := hset
          simp only [hcfg, Outcome.bind_ok]
          have hw : ∀ mf recs, withArgs sem cfg' true mf [] recs = .ok ([], recs) := by
            intro mf recs
            rcases recs with _ | ds
            · rfl
            · simp [withArgs, doArgs]
          simp only [hw, Outcome.bind_ok, Outcome.pure_eq]
          refine ⟨_, rfl, ?_⟩
          intro k f hk
          simp only [put] at hk
          split at hk
          · injection hk with hk; subst hk; simp only; omega
          · have := hB _ _ hk; omega
        · rw [if_neg hfp]
          refine ⟨_, rfl, ?_⟩
          intro k f hk
          have := hB _ _ hk; omega
      obtain ⟨st1, e1, e2⟩ := hstep
      simp only [step, e1, Outcome.bind_ok, Outcome.pure_eq]
      refine ih st1 (c :: l) l' (B + 1) (enter_inv hC h hc e1).1 (fun d hd => hsub d (by simp [sites, hd])) hs ?_ e2 (by omega) (by omega) hargs'
      intro p hp l1 hl1
      refine hd (.enter c [] :: p) ?_ l1 hl1
      exact List.cons_prefix_cons.2 ⟨rfl, hp⟩
    · have ha : args = [] := by
        obtain ⟨d, hd | hd⟩ := hargs _ (List.mem_cons_self)
        · cases hd
        · injection hd
      subst ha
      rcases l with _ | ⟨d, l⟩
      · simp [shadow] at hs
      · rw [shadow] at hs
        split at hs
        swap
        · cases hs
        rename_i hcd
        subst hcd
        have hstep : ∃ st1, exitFn sem c [] st = .ok (st1, []) ∧ (∀ k f, st1.vmap k = some f → f.nCalls ≤ B + 1) := by
          unfold exitFn
          obtain ⟨s, p1, p2⟩ := pop_rep h.stack
          by_cases hfp : c.fp = true
          · rw [if_pos hfp]
            unfold vfiExit
            simp only [rd_top h.stack, rd_parent h.stack, Outcome.bind_ok]
            have hset : ∃ cfg', restore st l.head? = .ok cfg' := by
              unfold restore
              split
              · exact ⟨_, rfl⟩
              · split
                · split
                  · rename_i pf hpf
                    refine setOps_total _ ?_
                    rw [h.ops _ _ hpf]; exact hprof _
                  · exact ⟨_, rfl⟩
                · exact ⟨_, rfl⟩
            obtain ⟨cfg', hcfg⟩ := hset
            simp only [hcfg, Outcome.bind_ok]
            obtain ⟨fn, hfn⟩ := Option.isSome_iff_exists.1 (h.known c (by simp) hfp)
            simp only [hfn]
            have hw : ∀ mf recs, withArgs sem cfg' false mf [] recs = .ok ([], recs) := by
              intro mf recs
              rcases recs with _ | ds
              · rfl
              · simp [withArgs, doArgs]
            simp only [hw, Outcome.bind_ok, Outcome.pure_eq, p1]
            refine ⟨_, rfl, ?_⟩
            intro k f hk
            simp only [put] at hk
            split at hk
            · injection hk with hk; subst hk; have := hB _ _ hfn; simp only; omega
            · have := hB _ _ hk; omega
          · rw [if_neg hfp]
            simp only [Outcome.pure_eq, Outcome.bind_ok, p1]
            refine ⟨_, rfl, ?_⟩
            intro k f hk
            have := hB _ _ hk; omega
        obtain ⟨st1, e1, e2⟩ := hstep
        simp only [step, e1, Outcome.bind_ok, Outcome.pure_eq]
        refine ih st1 l l' (B + 1) (exit_inv h e1).1 (fun d hd => hsub d (by simp [sites, hd])) hs ?_ e2 (by omega) (by omega) hargs'
        intro p hp l1 hl1
        refine hd (.exit c [] :: p) (List.cons_prefix_cons.2 ⟨rfl, hp⟩) l1 ?_
        simp [shadow, hl1]

/-- **C14, progress.**  A well nested trace of calls (without intercepted arguments) whose depth
fits the stack runs to completion: no undefined behaviour and no error, provided the profile
holds values the setters accept. -/
theorem C14_progress (sem : ShiftSem) (profile : Nat → Option Fn) (cfg : Cfg) (m : InstMode) (es : List Ev) (l : List Info)
    (hC : NoCollision (sites es)) (hs : shadow [] es = some l) (hd : Shallow es)
    (hargs : ∀ e ∈ es, ∃ c, e = .enter c [] ∨ e = .exit c [])
    (hprof : ∀ k f, profile k = some f → okOps f.ops ∧ f.nCalls ≤ 2 ^ 30) (hlen : es.length < 2 ^ 30) :
    ∃ st, run sem (init profile cfg m) es = .ok st := by
  refine run_total hC sem ?_ es _ _ _ (2 ^ 30) (init_inv profile (sites es) cfg m) (fun _ h => h) hs hd ?_ (by norm_num) (by
    have : (es.length : Int) < 2 ^ 30 := by exact_mod_cast hlen
    norm_num at this ⊢; linarith) hargs
  · intro k
    unfold prescribed
    rcases hp : profile k with _ | f
    · exact ⟨by norm_num, by norm_num, by norm_num, by norm_num, by norm_num, by norm_num, by norm_num, by norm_num⟩
    · exact (hprof k f hp).1
  · intro k f h; exact (hprof k f h).2

/-! ## C11 -/

/-- A function of the program itself: neither library nor intrinsic. -/
def Info.user (c : Info) : Prop := c.isLib = false ∧ c.isIntr = false

/-- A function using floating point is called either directly from one that does, or while none
that does is running. -/
def NoGap : List Info → List Ev → Prop
  | _, [] => True
  | l, .enter c _ :: es => (c.fp = true → (∃ d, l.head? = some d ∧ d.fp = true) ∨ ∀ d ∈ l, d.fp = false) ∧ NoGap (c :: l) es
  | l, .exit _ _ :: es => NoGap l.tail es

/-- The precision invariant: the innermost function using floating point, if it is a user
function, has its precision active. -/
def Scoped (profile : Nat → Option Fn) (st : St) (l : List Info) : Prop :=
  ∀ f, l.find? Info.fp = some f → setsOps st.inst f = true → opsOf st.cfg = prescribed profile (hash f.id)

/-- The same pattern on the running stack. -/
def Tight : List Info → Prop
  | [] => True
  | c :: l => (c.fp = true → (∃ d, l.head? = some d ∧ d.fp = true) ∨ ∀ d ∈ l, d.fp = false) ∧ Tight l

theorem run_scoped {profile : Nat → Option Fn} {C : List Info} (hC : NoCollision C) {sem : ShiftSem} (es : List Ev) :
    ∀ (st st' : St) (l l' : List Info), Inv profile C st l → Scoped profile st l → Tight l → NoGap l es →
      (∀ c ∈ sites es, c ∈ C) → shadow l es = some l' →
      run sem st es = .ok st' → Scoped profile st' l' ∧ st'.inst = st.inst := by
  induction es with
  | nil =>
    intro st st' l l' h hsc _ _ _ hs hr
    simp only [shadow, Option.some.injEq] at hs
    simp only [run, Outcome.ok.injEq] at hr
    subst hs hr; exact ⟨hsc, rfl⟩
  | cons e es ih =>
    intro st st' l l' h hsc ht hg hsub hs hr
    rw [run] at hr
    obtain ⟨st1, h1, hr⟩ := bind_ok_inv hr
    rcases e with ⟨c, args⟩ | ⟨c, args⟩
    · rw [step] at h1
      obtain ⟨⟨st2, as⟩, h2, h1⟩ := bind_ok_inv h1
      simp only [Outcome.pure_eq, Outcome.ok.injEq] at h1
      subst h1
      obtain ⟨i1, i2, i3, i4⟩ := enter_inv hC h (hsub c (by simp [sites])) h2
      obtain ⟨g1, g2⟩ := hg
      have := ih _ _ _ _ i1 (by
        intro f hf hset
        rw [i2] at hset
        by_cases hfp : c.fp = true
        · rw [List.find?_cons_of_pos hfp] at hf
          injection hf with hf; subst hf
          exact i3 hfp hset
        · rw [List.find?_cons_of_neg hfp] at hf
          rw [i4 (by simpa using hfp)]
          exact hsc f hf hset) ⟨g1, ht⟩ g2 (fun d hd => hsub d (by simp [sites, hd])) hs hr
      exact ⟨this.1, this.2.trans i2⟩
    · rw [step] at h1
      obtain ⟨⟨st2, as⟩, h2, h1⟩ := bind_ok_inv h1
      simp only [Outcome.pure_eq, Outcome.ok.injEq] at h1
      subst h1
      rcases l with _ | ⟨d, l⟩
      · simp [shadow] at hs
      · rw [shadow] at hs
        split at hs
        · rename_i hcd
          subst hcd
          obtain ⟨i1, i2, i3, i4⟩ := exit_inv h h2
          have := ih _ _ _ _ i1 (by
            intro f hf hset
            rw [i2] at hset
            by_cases hfp : c.fp = true
            · rcases ht.1 hfp with ⟨d, hd, hdfp⟩ | hnone
              · have : f = d := by
                  rcases l with _ | ⟨d', l⟩
                  · cases hd
                  · simp only [List.head?_cons, Option.some.injEq] at hd
                    subst hd
                    rw [List.find?_cons_of_pos hdfp] at hf
                    injection hf with hf; exact hf.symm
                subst this
                exact i3 hfp f hd hdfp hset
              · have h1 := List.mem_of_find?_eq_some hf
                have h2 := List.find?_some hf
                rw [hnone f h1] at h2; cases h2
            · rw [i4 (by simpa using hfp)]
              refine hsc f ?_ hset
              rw [List.find?_cons_of_neg hfp]; exact hf) ht.2 hg (fun d hd => hsub d (by simp [sites, hd])) hs hr
          exact ⟨this.1, this.2.trans i2⟩
        · cases hs

/-- **C11.**  In operations/all mode, after every well nested trace without gaps, the running
function has the precision and range its profile entry (or the default) prescribes: on entry
and again after each of its callees returned.  Missing from the full statement: traces in which
a function without floating point stands between two functions with it (`C11_leak`). -/
theorem C11_scoped_partial (sem : ShiftSem) (profile : Nat → Option Fn) (cfg : Cfg) (m : InstMode) (hm : m = .op ∨ m = .all)
    (es : List Ev) (c : Info) (l : List Info) (st : St) (hC : NoCollision (sites es)) (hg : NoGap [] es)
    (hs : shadow [] es = some (c :: l)) (hu : c.user) (hfp : c.fp = true)
    (hr : run sem (init profile cfg m) es = .ok st) :
    opsOf st.cfg = match profile (hash c.id) with
      | some f => f.ops
      | none => (52, 11, 23, 8) := by
  obtain ⟨h1, h2⟩ := run_scoped hC es _ _ _ _ (init_inv profile (sites es) cfg m)
    (by intro f hf; cases hf) trivial hg (fun _ h => h) hs hr
  refine h1 c (by rw [List.find?_cons_of_pos hfp]) ?_
  rw [h2]
  rcases hm with rfl | rfl <;> simp [setsOps, init, hu.1, hu.2]

/-- **C11, library functions.**  Entering a library function or an intrinsic never changes the
configuration, whatever the mode and the profile say: it runs with the precision of its caller. -/
theorem C11_library (sem : ShiftSem) (profile : Nat → Option Fn) (cfg : Cfg) (m : InstMode) (es : List Ev) (l : List Info)
    (st st' : St) (c : Info) (args args' : List Arg) (hC : NoCollision (c :: sites es)) (hs : shadow [] es = some l)
    (hr : run sem (init profile cfg m) es = .ok st) (hl : c.isLib = true ∨ c.isIntr = true)
    (he : enterFn sem c args st = .ok (st', args')) : st'.cfg = st.cfg := by
  have h := run_inv hC es _ _ _ _ (init_inv profile (c :: sites es) cfg m) (fun _ h => List.mem_cons_of_mem _ h) hs hr
  unfold enterFn at he
  have hf : (st.tab (hash c.id)).getD c = c := by
    rcases ht : st.tab (hash c.id) with _ | i
    · rfl
    · obtain ⟨h1, h2⟩ := h.tab _ _ ht
      exact hC i h1 c List.mem_cons_self h2
  rw [hf] at he
  obtain ⟨s, hsk, he⟩ := bind_ok_inv he
  have hrep := push_inv h.stack hsk
  split at he
  · obtain ⟨-, -, -, -, -, e⟩ := vfiEnter_ok (st := { st with tab := put st.tab (hash c.id) c, stack := s }) (rd_top hrep) he
    exact e (by rcases hl with h | h <;> simp [setsOps, h])
  · simp only [Outcome.pure_eq, Outcome.ok.injEq, Prod.mk.injEq] at he
    rw [← he.1]

/-- In arguments mode or without instrumentation the precision of the operations is left alone. -/
theorem C11_other_modes (sem : ShiftSem) (profile : Nat → Option Fn) (cfg : Cfg) (m : InstMode) (hm : m = .arg ∨ m = .none)
    (es : List Ev) (st : St) (hr : run sem (init profile cfg m) es = .ok st) : st.cfg = cfg := by
  have key : ∀ (es : List Ev) (s s' : St), (s.inst = .arg ∨ s.inst = .none) → run sem s es = .ok s' → s'.cfg = s.cfg := by
    intro es
    induction es with
    | nil => intro s s' _ h; simp only [run, Outcome.ok.injEq] at h; rw [h]
    | cons e es ih =>
      intro s s' hm h
      have hno : ∀ i, setsOps s.inst i = false := by
        intro i; rcases hm with h | h <;> rw [h] <;> simp [setsOps]
      rw [run] at h
      obtain ⟨s1, h1, h⟩ := bind_ok_inv h
      have : s1.cfg = s.cfg ∧ s1.inst = s.inst := by
        rcases e with ⟨c, args⟩ | ⟨c, args⟩
        · rw [step] at h1
          obtain ⟨⟨s2, as⟩, h2, h1⟩ := bind_ok_inv h1
          simp only [Outcome.pure_eq, Outcome.ok.injEq] at h1
          subst h1
          unfold enterFn at h2
          obtain ⟨sk, -, h2⟩ := bind_ok_inv h2
          split at h2
          · unfold vfiEnter at h2
            obtain ⟨info, -, h2⟩ := bind_ok_inv h2
            split at h2
            · cases h2
            · obtain ⟨n, -, h2⟩ := bind_ok_inv h2
              obtain ⟨cf, h3, h2⟩ := bind_ok_inv h2
              obtain ⟨⟨_, _⟩, -, h2⟩ := bind_ok_inv h2
              simp only [hno] at h3
              simp only [Outcome.pure_eq, Outcome.ok.injEq, Prod.mk.injEq] at h2
              obtain ⟨h2, -⟩ := h2
              subst h2
              exact ⟨by simpa using h3.symm, rfl⟩
          · simp only [Outcome.pure_eq, Outcome.ok.injEq, Prod.mk.injEq] at h2
            obtain ⟨h2, -⟩ := h2
            subst h2; exact ⟨rfl, rfl⟩
        · rw [step] at h1
          obtain ⟨⟨s2, as⟩, h2, h1⟩ := bind_ok_inv h1
          simp only [Outcome.pure_eq, Outcome.ok.injEq] at h1
          subst h1
          unfold exitFn at h2
          obtain ⟨⟨s3, as3⟩, h3, h2⟩ := bind_ok_inv h2
          obtain ⟨sk, -, h2⟩ := bind_ok_inv h2
          simp only [Outcome.pure_eq, Outcome.ok.injEq, Prod.mk.injEq] at h2
          obtain ⟨h2, -⟩ := h2
          subst h2
          split at h3
          · unfold vfiExit at h3
            obtain ⟨info, -, h3⟩ := bind_ok_inv h3
            split at h3
            · cases h3
            · obtain ⟨par, -, h3⟩ := bind_ok_inv h3
              obtain ⟨cf, h4, h3⟩ := bind_ok_inv h3
              split at h3
              · cases h3
              · obtain ⟨⟨_, _⟩, -, h3⟩ := bind_ok_inv h3
                simp only [Outcome.pure_eq, Outcome.ok.injEq, Prod.mk.injEq] at h3
                obtain ⟨h3, -⟩ := h3
                subst h3
                refine ⟨?_, rfl⟩
                rcases par with _ | p
                · simpa [restore] using h4.symm
                · simpa [restore, hno] using h4.symm
          · simp only [Outcome.pure_eq, Outcome.ok.injEq, Prod.mk.injEq] at h3
            obtain ⟨h3, -⟩ := h3
            subst h3; exact ⟨rfl, rfl⟩
      rw [ih _ _ (by rw [this.2]; exact hm) h, this.1]
  exact key es _ _ hm hr

/-! ### Concrete cases -/

def site (s : String) (fp : Bool) : Info := ⟨s.toList, false, false, false, fp⟩

/-- Profile: `h` at 20 bits, `f` at 10 bits. -/
def exProfile : Nat → Option Fn := fun k =>
  if k = hash "h".toList then some { newFn (site "h" true) with prec64 := 20 }
  else if k = hash "f".toList then some { newFn (site "f" true) with prec64 := 10 }
  else none

/-- `h` calls `f` which returns: `h` runs again with its 20 bits. -/
example : (do let st ← run .strict (init exProfile Vprec.Config.init .op)
                [.enter (site "h" true) [], .enter (site "f" true) [], .exit (site "f" true) []]
              return opsOf st.cfg) = .ok (20, 11, 23, 8) := by decide +kernel

example : NoGap [] [.enter (site "h" true) [], .enter (site "f" true) [], .exit (site "f" true) []] :=
  ⟨fun _ => Or.inr (by simp), fun _ => Or.inl ⟨_, rfl, rfl⟩, trivial⟩

/-- **C11, negation.**  `h` calls `g`, which has no floating point and calls `f`.  When control
is back in `h`, it runs with the 10 bits of `f` instead of its own 20. -/
theorem C11_leak : ∃ (profile : Nat → Option Fn) (es : List Ev) (c : Info) (st : St),
    shadow [] es = some [c] ∧ NoCollision (sites es) ∧ c.user ∧ c.fp = true ∧
    run .strict (init profile Vprec.Config.init .op) es = .ok st ∧
    (∃ f, profile (hash c.id) = some f ∧ f.ops = (20, 11, 23, 8)) ∧ opsOf st.cfg = (10, 11, 23, 8) := by
  let es : List Ev := [.enter (site "h" true) [], .enter (site "g" false) [], .enter (site "f" true) [],
    .exit (site "f" true) [], .exit (site "g" false) []]
  have hx : ∃ st, run .strict (init exProfile Vprec.Config.init .op) es = .ok st ∧ opsOf st.cfg = (10, 11, 23, 8) := by
    have : (do let st ← run .strict (init exProfile Vprec.Config.init .op) es; return opsOf st.cfg) = Outcome.ok (10, 11, 23, 8) := by
      decide +kernel
    obtain ⟨st, h1, h2⟩ := bind_ok_inv this
    simp only [Outcome.pure_eq, Outcome.ok.injEq] at h2
    exact ⟨st, h1, h2⟩
  obtain ⟨st, h1, h2⟩ := hx
  refine ⟨exProfile, es, site "h" true, st, by decide +kernel, ?_, ⟨rfl, rfl⟩, rfl, h1, ?_, h2⟩
  · have : ∀ c ∈ sites es, ∀ d ∈ sites es, hash c.id = hash d.id → c = d := by decide +kernel
    exact this
  · exact ⟨_, rfl, rfl⟩

/-- **C14 / C11, negation with a hash collision.**  The identifiers `Aa` and `BB` have the same
hash: the stack then holds `Aa` while `BB` runs. -/
theorem C14_collision : ∃ (es : List Ev) (c : Info) (l : List Info) (st : St),
    shadow [] es = some (c :: l) ∧ run .strict (init (fun _ => none) Vprec.Config.init .op) es = .ok st ∧
    st.stack.rd st.stack.top ≠ .ok (some c) := by
  let es : List Ev := [.enter (site "Aa" false) [], .exit (site "Aa" false) [], .enter (site "BB" false) []]
  have : (do let st ← run .strict (init (fun _ => none) Vprec.Config.init .op) es; st.stack.rd st.stack.top) = Outcome.ok (some (site "Aa" false)) := by
    decide +kernel
  obtain ⟨st, h1, h2⟩ := bind_ok_inv this
  exact ⟨es, site "BB" false, [], st, by decide +kernel, h1, by rw [h2]; decide⟩

/-- **C14, threads.**  The stack is shared by all threads: two threads each making one well
nested call (`f` in one, `g` in the other) can leave `f` at the top while only `g` runs. -/
theorem C14_interleaved : ∃ st, run .strict (init (fun _ => none) Vprec.Config.init .op)
      [.enter (site "f" false) [], .enter (site "g" false) [], .exit (site "f" false) []] = .ok st ∧
    st.stack.rd st.stack.top = .ok (some (site "f" false)) := by
  have : (run .strict (init (fun _ => none) Vprec.Config.init .op)
      [.enter (site "f" false) [], .enter (site "g" false) [], .exit (site "f" false) []] >>=
        fun st => st.stack.rd st.stack.top) = Outcome.ok (some (site "f" false)) := by decide +kernel
  obtain ⟨st, h1, h2⟩ := bind_ok_inv this
  exact ⟨st, h1, h2⟩

/-! ## C52: call counts -/

/-- Number of entries into call sites with floating point and hash `k`. -/
def entries (k : Nat) : List Ev → Nat
  | [] => 0
  | .enter c _ :: es => (if c.fp = true ∧ hash c.id = k then 1 else 0) + entries k es
  | .exit _ _ :: es => entries k es

def calls (m : Nat → Option Fn) (k : Nat) : Int := match m k with | some f => f.nCalls | none => 0

/-- **C52.**  Whatever the sequence of hooks (nested or not), the count of a profile entry grows
by the number of entries into call sites with that hash. -/
theorem C52_counts (sem : ShiftSem) (profile : Nat → Option Fn) (cfg : Cfg) (m : InstMode) (es : List Ev) (st : St)
    (hr : run sem (init profile cfg m) es = .ok st) (k : Nat) :
    calls st.vmap k = calls profile k + entries k es := by
  have key : ∀ (es : List Ev) (s s' : St), (∀ k i, s.tab k = some i → hash i.id = k) → run sem s es = .ok s' →
      calls s'.vmap k = calls s.vmap k + entries k es := by
    intro es
    induction es with
    | nil => intro s s' _ h; simp only [run, Outcome.ok.injEq] at h; simp [h, entries]
    | cons e es ih =>
      intro s s' ht h
      rw [run] at h
      obtain ⟨s1, h1, h⟩ := bind_ok_inv h
      rcases e with ⟨c, args⟩ | ⟨c, args⟩
      · rw [step] at h1
        obtain ⟨⟨s2, as⟩, h2, h1⟩ := bind_ok_inv h1
        simp only [Outcome.pure_eq, Outcome.ok.injEq] at h1
        subst h1
        unfold enterFn at h2
        obtain ⟨sk, hsk, h2⟩ := bind_ok_inv h2
        have hfk : hash ((s.tab (hash c.id)).getD c).id = hash c.id := by
          rcases hv : s.tab (hash c.id) with _ | i
          · rfl
          · exact ht _ _ hv
        have ht' : ∀ k i, put s.tab (hash c.id) ((s.tab (hash c.id)).getD c) k = some i → hash i.id = k := by
          intro k i hk
          unfold put at hk
          split at hk
          · rename_i hkk; injection hk with hk; subst hk; rw [hkk]; exact hfk
          · exact ht k i hk
        have hrd : sk.rd sk.top = .ok (some ((s.tab (hash c.id)).getD c)) := by
          unfold Stack.push Stack.wr at hsk
          split_ifs at hsk with q1 q2
          injection hsk with hsk; subst hsk
          simp [Stack.rd, q2]
        rw [entries]
        by_cases hfp : c.fp = true
        · rw [if_pos hfp] at h2
          obtain ⟨-, e2, -, ⟨fn', e4, -, -, e5⟩, -, -⟩ := vfiEnter_ok (st := { s with tab := put s.tab (hash c.id) ((s.tab (hash c.id)).getD c), stack := sk }) hrd h2
          simp only at e2 e4 e5
          rw [ih s2 s' (by rw [e2]; exact ht') h, e4]
          by_cases hk : hash c.id = k
          · subst hk
            rw [hfk] at e5
            have : calls (put s.vmap (hash ((s.tab (hash c.id)).getD c).id) fn') (hash c.id) = calls s.vmap (hash c.id) + 1 := by
              unfold calls
              simp only [put, hfk, if_true, e5]
              rcases s.vmap (hash c.id) with _ | f <;> rfl
            rw [this, if_pos ⟨hfp, rfl⟩]; push_cast; ring
          · have : calls (put s.vmap (hash ((s.tab (hash c.id)).getD c).id) fn') k = calls s.vmap k := by
              unfold calls put; rw [hfk, if_neg (fun e => hk e.symm)]
            rw [this, if_neg (fun e => hk e.2)]; push_cast; ring
        · rw [if_neg hfp] at h2
          simp only [Outcome.pure_eq, Outcome.ok.injEq, Prod.mk.injEq] at h2
          obtain ⟨h2, -⟩ := h2
          subst h2
          rw [ih _ s' ht' h, if_neg (fun e => hfp e.1)]; simp
      · rw [step] at h1
        obtain ⟨⟨s2, as⟩, h2, h1⟩ := bind_ok_inv h1
        simp only [Outcome.pure_eq, Outcome.ok.injEq] at h1
        subst h1
        unfold exitFn at h2
        obtain ⟨⟨s3, as3⟩, h3, h2⟩ := bind_ok_inv h2
        obtain ⟨sk, -, h2⟩ := bind_ok_inv h2
        simp only [Outcome.pure_eq, Outcome.ok.injEq, Prod.mk.injEq] at h2
        obtain ⟨h2, -⟩ := h2
        subst h2
        rw [entries]
        have : s3.tab = s.tab ∧ calls s3.vmap k = calls s.vmap k := by
          split at h3
          · unfold vfiExit at h3
            obtain ⟨info, -, h3⟩ := bind_ok_inv h3
            split at h3
            · cases h3
            · rename_i fi
              obtain ⟨par, -, h3⟩ := bind_ok_inv h3
              obtain ⟨cf, h4, h3⟩ := bind_ok_inv h3
              split at h3
              · cases h3
              · rename_i fn hfn
                obtain ⟨⟨_, _⟩, -, h3⟩ := bind_ok_inv h3
                simp only [Outcome.pure_eq, Outcome.ok.injEq, Prod.mk.injEq] at h3
                obtain ⟨h3, -⟩ := h3
                subst h3
                refine ⟨rfl, ?_⟩
                unfold calls
                simp only [put]
                split
                · rename_i g hg
                  split at hg
                  · rename_i hk; injection hg with hg; subst hg; rw [hk, hfn]
                  · rw [hg]
                · rename_i hg
                  split at hg
                  · cases hg
                  · rw [hg]
          · simp only [Outcome.pure_eq, Outcome.ok.injEq, Prod.mk.injEq] at h3
            obtain ⟨h3, -⟩ := h3
            subst h3; exact ⟨rfl, rfl⟩
        rw [ih _ s' (by rw [this.1]; exact ht) h, this.2]
  exact key es _ _ (by intro k i h; simp [init] at h) hr

example : (do let st ← run .strict (init exProfile Vprec.Config.init .op)
                [.enter (site "h" true) [], .enter (site "f" true) [], .exit (site "f" true) [], .enter (site "f" true) []]
              return (calls st.vmap (hash "f".toList), calls st.vmap (hash "h".toList))) = .ok (2, 1) := by decide +kernel

end Verif.Vfi
