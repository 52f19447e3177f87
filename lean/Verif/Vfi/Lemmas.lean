import Verif.Vfi.Model
import Verif.Vprec.ConfigProps

/-! # Lemmas on the instrumentation hooks -/

namespace Verif.Vfi
open Verif Verif.Fp Verif.Vprec.Config

/-- The stack holds the list `l`, running function first, above the NULL sentinel. -/
structure SRep (s : Stack) (l : List Info) : Prop where
  len : s.top + l.length = 4095
  cell : ∀ (i : Nat) (x : Info), l[i]? = some x → s.arr (s.top + i) = some (some x)
  bottom : s.arr 4095 = some none

theorem srep_init : SRep stackInit [] := ⟨rfl, by simp, rfl⟩

theorem push_rep {s : Stack} {l : List Info} (f : Info) (h : SRep s l) :
    (l.length < 4095 → ∃ s', s.push f = .ok s' ∧ SRep s' (f :: l)) ∧ (4095 ≤ l.length → s.push f = .exit) := by
  have hl := h.len
  constructor
  · intro hlt
    unfold Stack.push Stack.wr maxSize
    rw [if_neg (by omega), if_pos (by omega)]
    refine ⟨_, rfl, ⟨by simp only [List.length_cons]; omega, ?_, ?_⟩⟩
    · intro i x hx
      rcases i with _ | i
      · simp at hx; simp [hx]
      · simp only [List.getElem?_cons_succ] at hx
        have := h.cell i x hx
        have e : s.top - 1 + (i + 1) = s.top + i := by omega
        simp only [e]
        rw [if_neg (by omega)]; exact this
    · simp only; rw [if_neg (by omega)]; exact h.bottom
  · intro hge
    unfold Stack.push; rw [if_pos (by omega)]

theorem push_inv {s s' : Stack} {l : List Info} {f : Info} (h : SRep s l) (e : s.push f = .ok s') : SRep s' (f :: l) := by
  by_cases hl : l.length < 4095
  · obtain ⟨s1, h1, h2⟩ := (push_rep f h).1 hl
    rw [e] at h1; injection h1 with h1; subst h1; exact h2
  · rw [(push_rep f h).2 (by omega)] at e; cases e

theorem rd_top {s : Stack} {f : Info} {l : List Info} (h : SRep s (f :: l)) : s.rd s.top = .ok (some f) := by
  have hl := h.len
  simp only [List.length_cons] at hl
  unfold Stack.rd maxSize
  rw [if_pos (by omega)]
  have := h.cell 0 f rfl
  simp only [Nat.add_zero] at this
  rw [this]

theorem rd_parent {s : Stack} {f : Info} {l : List Info} (h : SRep s (f :: l)) : s.rd (s.top + 1) = .ok l.head? := by
  have hl := h.len
  simp only [List.length_cons] at hl
  unfold Stack.rd maxSize
  rw [if_pos (by omega)]
  rcases l with _ | ⟨g, l⟩
  · have : s.top + 1 = 4095 := by simp only [List.length_nil] at hl; omega
    rw [this, h.bottom]; rfl
  · have := h.cell 1 g rfl
    rw [this]; rfl

theorem pop_rep {s : Stack} {f : Info} {l : List Info} (h : SRep s (f :: l)) :
    ∃ s', s.pop = .ok s' ∧ SRep s' l := by
  have hl := h.len
  simp only [List.length_cons] at hl
  unfold Stack.pop
  rw [if_pos (by unfold maxSize; omega), rd_top h]
  refine ⟨_, rfl, ⟨by simp only; omega, ?_, h.bottom⟩⟩
  intro i x hx
  have := h.cell (i + 1) x (by simpa using hx)
  simp only
  rw [← this]; congr 1; omega

/-- What a VFI record says about operations. -/
def Fn.ops (f : Fn) : Int × Int × Int × Int := (f.prec64, f.range64, f.prec32, f.range32)

/-- The active precision and range of the operations. -/
def opsOf (c : Cfg) : Int × Int × Int × Int := (c.prec64, c.range64, c.prec32, c.range32)

theorem setOps_ok {f : Fn} {c c' : Cfg} (h : setOps f c = .ok c') : opsOf c' = f.ops ∧ c'.mode = c.mode := by
  unfold setOps at h
  obtain ⟨c1, h1, h⟩ := bind_ok_inv h
  obtain ⟨c2, h2, h⟩ := bind_ok_inv h
  obtain ⟨c3, h3, h⟩ := bind_ok_inv h
  unfold setPrec64 at h1
  unfold setRange64 at h2
  unfold setPrec32 at h3
  unfold setRange32 at h
  split_ifs at h1 h2 h3 h
  injection h1 with h1; injection h2 with h2; injection h3 with h3; injection h with h
  subst h1 h2 h3 h
  exact ⟨rfl, rfl⟩

/-- A precision setting the setters accept. -/
def okOps (o : Int × Int × Int × Int) : Prop :=
  1 ≤ o.1 ∧ o.1 ≤ 52 ∧ 2 ≤ o.2.1 ∧ o.2.1 ≤ 11 ∧ 1 ≤ o.2.2.1 ∧ o.2.2.1 ≤ 23 ∧ 2 ≤ o.2.2.2 ∧ o.2.2.2 ≤ 8

theorem setOps_total {f : Fn} (c : Cfg) (h : okOps f.ops) : ∃ c', setOps f c = .ok c' := by
  obtain ⟨h1, h2, h3, h4, h5, h6, h7, h8⟩ := h
  simp only [Fn.ops] at h1 h2 h3 h4 h5 h6 h7 h8
  unfold setOps setPrec64 setRange64 setPrec32 setRange32
  rw [if_neg (by omega), if_neg (by omega)]
  simp only [Outcome.bind_ok]
  rw [if_neg (by omega), if_neg (by omega)]
  simp only [Outcome.bind_ok]
  rw [if_neg (by omega), if_neg (by omega)]
  simp only [Outcome.bind_ok]
  rw [if_neg (by omega), if_neg (by omega)]
  exact ⟨_, rfl⟩

theorem incr_ok {n m : Int} (h : incr n = .ok m) : m = n + 1 ∧ n + 1 < 2 ^ 31 := by
  unfold incr at h
  split_ifs at h with h1
  injection h with h; exact ⟨h.symm, h1⟩

/-- Effect of a completed `_vfi_enter_function`. -/
theorem vfiEnter_ok {sem : ShiftSem} {st st' : St} {args args' : List Arg} {fi : Info}
    (hrd : st.stack.rd st.stack.top = .ok (some fi)) (h : vfiEnter sem st args = .ok (st', args')) :
    st'.stack = st.stack ∧ st'.tab = st.tab ∧ st'.inst = st.inst ∧
    (∃ fn', st'.vmap = put st.vmap (hash fi.id) fn' ∧
      fn'.ops = ((st.vmap (hash fi.id)).getD (newFn fi)).ops ∧
      fn'.info = ((st.vmap (hash fi.id)).getD (newFn fi)).info ∧
      fn'.nCalls = ((st.vmap (hash fi.id)).getD (newFn fi)).nCalls + 1) ∧
    (setsOps st.inst fi = true → opsOf st'.cfg = ((st.vmap (hash fi.id)).getD (newFn fi)).ops) ∧
    (setsOps st.inst fi = false → st'.cfg = st.cfg) := by
  unfold vfiEnter at h
  rw [hrd] at h
  simp only [Outcome.bind_ok] at h
  obtain ⟨n, hn, h⟩ := bind_ok_inv h
  obtain ⟨cfg, hc, h⟩ := bind_ok_inv h
  obtain ⟨⟨as, recs⟩, -, h⟩ := bind_ok_inv h
  simp only [Outcome.pure_eq, Outcome.ok.injEq, Prod.mk.injEq] at h
  obtain ⟨h, -⟩ := h
  subst h
  refine ⟨rfl, rfl, rfl, ⟨_, rfl, rfl, rfl, (incr_ok hn).1⟩, ?_, ?_⟩
  · intro hs
    rw [if_pos hs] at hc
    exact (setOps_ok hc).1
  · intro hs
    rw [if_neg (by simp [hs])] at hc
    injection hc with hc
    exact hc.symm

/-- Effect of a completed `_vfi_exit_function`. -/
theorem vfiExit_ok {sem : ShiftSem} {st st' : St} {args args' : List Arg} {fi : Info} {p : Option Info}
    (hrd : st.stack.rd st.stack.top = .ok (some fi)) (hp : st.stack.rd (st.stack.top + 1) = .ok p)
    (h : vfiExit sem st args = .ok (st', args')) :
    st'.stack = st.stack ∧ st'.tab = st.tab ∧ st'.inst = st.inst ∧
    (∃ fn fn', st.vmap (hash fi.id) = some fn ∧ st'.vmap = put st.vmap (hash fi.id) fn' ∧
      fn'.ops = fn.ops ∧ fn'.info = fn.info ∧ fn'.nCalls = fn.nCalls) ∧
    (∀ q pf, p = some q → setsOps st.inst q = true → st.vmap (hash q.id) = some pf → opsOf st'.cfg = pf.ops) := by
  unfold vfiExit at h
  rw [hrd] at h
  simp only [Outcome.bind_ok, hp] at h
  obtain ⟨cfg, hc, h⟩ := bind_ok_inv h
  split at h
  · cases h
  · rename_i fn hfn
    obtain ⟨⟨as, recs⟩, -, h⟩ := bind_ok_inv h
    simp only [Outcome.pure_eq, Outcome.ok.injEq, Prod.mk.injEq] at h
    obtain ⟨h, -⟩ := h
    subst h
    refine ⟨rfl, rfl, rfl, ⟨fn, _, hfn, rfl, rfl, rfl, rfl⟩, ?_⟩
    intro q pf hq hs hv
    subst hq
    simp only [restore, hs, if_true, hv] at hc
    exact (setOps_ok hc).1

end Verif.Vfi
