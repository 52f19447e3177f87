import Mathlib.Data.BitVec
import Mathlib.Tactic.Ring
import Verif.Ieee.Count

/-! # C28: the counters are exact under concurrency -/

namespace Verif.Ieee
open Verif

/-- Number of operations of kind `k` in a program (one list of operations per thread). -/
def total (progs : List (List Op)) (k : Kind) : Nat := (progs.map fun p => (p.map Op.kind).count k).sum

/-- The counter of a kind. -/
def Counters.get (c : Counters) : Kind → Option (BitVec 64)
  | .add => some c.add
  | .sub => some c.sub
  | .mul => some c.mul
  | .div => some c.div
  | .fma => some c.fma
  | .cmp => none
  | .cast => none

/-- All threads have run to their end. -/
def CState.done (s : CState) : Prop := ∀ t ∈ s.threads, t = ⟨none, []⟩

/-- The state in which every thread is about to execute its program. -/
def start (progs : List (List Op)) : CState := { threads := progs.map fun p => { todo := p } }

/-- Operations not counted yet. -/
def Thread.left (t : Thread) (k : Kind) : Nat := (t.todo.map Op.kind).count k + (if t.mid.map Op.kind = some k then 1 else 0)

def CState.left (s : CState) (k : Kind) : Nat := (s.threads.map fun t => t.left k).sum

theorem sum_set {α : Type} (f : α → Nat) (l : List α) (i : Nat) (t t' : α) (h : l[i]? = some t) :
    ((l.set i t').map f).sum + f t = (l.map f).sum + f t' := by
  induction l generalizing i with
  | nil => simp at h
  | cons a as ih =>
    cases i with
    | zero => simp at h; subst h; simp; omega
    | succ i =>
      simp at h
      have := ih i h
      simp only [List.set_cons_succ, List.map_cons, List.sum_cons]; omega

/-- Invariant: what is counted plus what is left does not change. -/
theorem step_left (s : CState) (i : Nat) (k : Kind) (v : BitVec 64) (hv : s.counters.get k = some v) :
    ∃ v', (s.step true i).counters.get k = some v' ∧ v' + BitVec.ofNat 64 ((s.step true i).left k) = v + BitVec.ofNat 64 (s.left k) := by
  unfold CState.step
  split
  · exact ⟨v, hv, rfl⟩
  · rename_i t ht
    have hs := sum_set (fun t => t.left k) s.threads i t (t.step true s.counters).2 ht
    unfold CState.left
    simp only at hs ⊢
    generalize ((s.threads.set i (t.step true s.counters).2).map fun t => t.left k).sum = A at *
    generalize (s.threads.map fun t => t.left k).sum = B at *
    rcases t with ⟨mid, todo⟩
    unfold Thread.step at hs ⊢
    cases mid with
    | some o =>
      simp only [Thread.left, Option.map_some, Option.map_none, Option.some.injEq, reduceCtorEq, if_false] at hs ⊢
      by_cases hk : o.kind = k
      · rw [if_pos hk] at hs
        have hB : B = A + 1 := by omega
        subst hB
        rw [BitVec.ofNat_add]
        subst hk
        revert hv
        unfold Counters.bump
        cases o.kind <;> simp [Counters.get] <;> rintro rfl <;> ring
      · rw [if_neg hk] at hs
        have hB : A = B := by omega
        subst hB
        refine ⟨v, ?_, rfl⟩
        rw [← hv]
        unfold Counters.bump
        revert hk
        cases o.kind <;> cases k <;> simp [Counters.get]
    | none =>
      cases todo with
      | nil =>
        simp only [Thread.left] at hs ⊢
        exact ⟨v, hv, by have : A = B := by omega
                         rw [this]⟩
      | cons o os =>
        simp only [Thread.left, List.map_cons, List.count_cons, Option.map_none, Option.map_some, Option.some.injEq, reduceCtorEq, if_false,
          beq_iff_eq] at hs ⊢
        exact ⟨v, hv, by have : A = B := by omega
                         rw [this]⟩

theorem run_left (sched : List Nat) (s : CState) (k : Kind) (v : BitVec 64) (hv : s.counters.get k = some v) :
    ∃ v', (s.run true sched).counters.get k = some v' ∧ v' + BitVec.ofNat 64 ((s.run true sched).left k) = v + BitVec.ofNat 64 (s.left k) := by
  induction sched generalizing s v with
  | nil => exact ⟨v, hv, rfl⟩
  | cons i is ih =>
    obtain ⟨v1, h1, e1⟩ := step_left s i k v hv
    obtain ⟨v2, h2, e2⟩ := ih (s.step true i) v1 h1
    exact ⟨v2, h2, e2.trans e1⟩

/-- **C28.**  Let any number of threads run any programs on the backend with counting enabled,
interleaved in any way.  Once all have run to their end, the counter of each counted kind of
operation is the number of operations of that kind in the programs, modulo 2^64. -/
theorem C28_counts (progs : List (List Op)) (sched : List Nat) (hd : ((start progs).run true sched).done) (k : Kind)
    (hk : k ≠ .cmp ∧ k ≠ .cast) : ((start progs).run true sched).counters.get k = some (BitVec.ofNat 64 (total progs k)) := by
  have h0 : (start progs).counters.get k = some 0 := by
    cases k <;> simp_all [start, Counters.get]
  obtain ⟨v, hv, e⟩ := run_left sched (start progs) k 0 h0
  have hl : ((start progs).run true sched).left k = 0 := by
    unfold CState.left
    apply List.sum_eq_zero
    intro n hn
    obtain ⟨t, ht, rfl⟩ := List.mem_map.1 hn
    rw [hd t ht]
    simp [Thread.left]
  have hs : (start progs).left k = total progs k := by
    simp [CState.left, start, total, Thread.left, Function.comp_def]
  rw [hl, hs] at e
  rw [hv]
  simpa using e

/-- **C28, report**: the report printed at the end shows the five numbers of operations, provided
each is below 2^63 (they are printed as signed numbers). -/
theorem C28_report (progs : List (List Op)) (sched : List Nat) (hd : ((start progs).run true sched).done)
    (hlt : ∀ k, total progs k < 2 ^ 63) :
    finalize true ((start progs).run true sched).counters = "operations count:\n".toList ++
      "\t mul=".toList ++ Nat.toDigits 10 (total progs .mul) ++ "\n\t div=".toList ++ Nat.toDigits 10 (total progs .div) ++
      "\n\t add=".toList ++ Nat.toDigits 10 (total progs .add) ++ "\n\t sub=".toList ++ Nat.toDigits 10 (total progs .sub) ++
      "\n\t fma=".toList ++ Nat.toDigits 10 (total progs .fma) ++ "\n".toList := by
  have hi : ∀ k, (BitVec.ofNat 64 (total progs k)).toInt = total progs k := by
    intro k
    have := hlt k
    rw [BitVec.toInt_eq_toNat_of_lt (by rw [BitVec.toNat_ofNat]; omega), BitVec.toNat_ofNat, Nat.mod_eq_of_lt (by omega)]
  have g := C28_counts progs sched hd
  have g1 := g .mul (by decide)
  have g2 := g .div (by decide)
  have g3 := g .add (by decide)
  have g4 := g .sub (by decide)
  have g5 := g .fma (by decide)
  simp only [Counters.get, Option.some.injEq] at g1 g2 g3 g4 g5
  rw [finalize, if_pos rfl, g1, g2, g3, g4, g5, hi, hi, hi, hi, hi]
  have hdec : ∀ n : Nat, Vfi.dec n = Nat.toDigits 10 n := by
    intro n; rw [Vfi.dec, if_neg (by omega), Int.natAbs_natCast]
  simp only [hdec]

/-- With counting disabled the counters never move and nothing is printed. -/
theorem C28_disabled (progs : List (List Op)) (sched : List Nat) :
    ((start progs).run false sched).counters = {} ∧ finalize false ((start progs).run false sched).counters = [] := by
  refine ⟨?_, by simp [finalize]⟩
  have : ∀ s : CState, (s.run false sched).counters = s.counters := by
    induction sched with
    | nil => intro s; rfl
    | cons i is ih =>
      intro s
      refine (ih (s.step false i)).trans ?_
      unfold CState.step
      split
      · rfl
      · rename_i t ht
        rcases t with ⟨mid, todo⟩
        unfold Thread.step
        cases mid with
        | some o => simp [Counters.bump]
        | none => cases todo <;> rfl
  rw [this]; rfl

/-- Every program has a schedule that completes it, so the theorems are not vacuous: here two
threads whose increments of the same counter are interleaved. -/
example : let progs : List (List Op) := [[⟨.add, false⟩, ⟨.cmp, true⟩], [⟨.add, true⟩, ⟨.fma, true⟩]]
    let s := (start progs).run true [0, 1, 1, 0, 1, 0, 1, 0]
    s.threads = [⟨none, []⟩, ⟨none, []⟩] ∧ s.counters = { add := 2, fma := 1 } := by decide

end Verif.Ieee
